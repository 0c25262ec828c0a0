import Verif.Props.Balance

/-!
# The pages in use are no more than the content calls for: C84

No leaf but the first of a tree is empty, every internal page has two children at least, and the pages of a chain are full
but for the last.  So the number of pages below the roots is at most a fixed multiple of what is recorded.
-/

namespace Uma.Props
open Uma.Spec Uma.Db Uma.Page Uma.Mvcc Uma.Codec

/-- Bytes of data and metadata of an event. -/
def bulk (r : Record) : Nat :=
  (if r.event.metadata = [] then 0 else 2 + (r.event.metadata.map fun e => 4 + e.1.utf8ByteSize + e.2.utf8ByteSize).sum) +
    r.event.data.length

/-- Pages granted to an event: a leaf, an internal page, and a chain for its data. -/
def eventRoom (pageSize : Nat) (r : Record) : Nat := 3 + bulk r / (pageSize - 17)

/-- The hashes of all tags of all events, a hash once for each tag. -/
def tagHashes (H : String → TagHash) (log : Log) : List TagHash := log.flatMap fun r => r.event.tags.map H

/-- Pages at and below page `root`. -/
def pagesBelow (c : Conf) (d : PDb) (h : Header) (root : Nat) : List (Nat × Node) := listing (d.base c) h.nextPage root

section
variable {κ E : Type} {Y : Layout κ E}

/-- The number of separators. -/
def sepCount (sq : List (Item κ E)) : Nat := sq.countP Item.isSep

theorem sepCount_append (a b : List (Item κ E)) : sepCount (a ++ b) = sepCount a + sepCount b := List.countP_append

theorem sepCount_ents (es : List E) : sepCount (es.map (Item.ent (κ := κ))) = 0 := by
  unfold sepCount
  rw [List.countP_eq_zero]
  intro i hi
  obtain ⟨e, -, rfl⟩ := List.mem_map.mp hi
  simp [Item.isSep]

theorem sepCount_le : ∀ {sq : List (Item κ E)}, Dense sq → sepCount sq ≤ (ents sq).length
  | [], _ => Nat.zero_le _
  | .ent e :: sq, h => by
    have := sepCount_le (sq := sq) h
    simp only [sepCount, Item.isSep, List.countP_cons, ents, List.filterMap_cons, entOf, List.length_cons] at this ⊢
    simp
    omega
  | [.sep k], h => by obtain ⟨⟨e, q, h⟩, -⟩ := h; cases h
  | .sep k :: .sep k' :: sq, h => by obtain ⟨⟨e, q, h⟩, -⟩ := h; cases h
  | .sep k :: .ent e :: sq, h => by
    have := sepCount_le (sq := sq) h.2
    simp only [sepCount, Item.isSep, List.countP_cons, ents, List.filterMap_cons, entOf, List.length_cons] at this ⊢
    simp
    omega

theorem sepCount_rights (g : E → Nat) : ∀ (R : Rights κ E),
    (∀ x ∈ R, x.2.pg.card ≤ 1 + 2 * sepCount x.2.sq + ((ents x.2.sq).map g).sum) →
    (rpg R).card + R.length ≤ 2 * sepCount (rsq R) + ((ents (rsq R)).map g).sum
  | [], _ => by simp
  | x :: R, h => by
    have h1 := h x (by simp)
    have h2 := sepCount_rights g R fun y hy => h y (by simp [hy])
    have h3 : sepCount (rsq (x :: R)) = 1 + sepCount x.2.sq + sepCount (rsq R) := by
      rw [rsq_cons, ← List.cons_append, sepCount_append]
      congr 1
      simp only [sepCount, List.countP_cons, Item.isSep]
      simp
      omega
    have h4 : ((ents (rsq (x :: R))).map g).sum = ((ents x.2.sq).map g).sum + ((ents (rsq R)).map g).sum := by
      rw [rsq_cons, ← List.cons_append, ents_append, List.map_append, List.sum_append]
      rfl
    rw [rpg_cons, Multiset.card_add, h3, h4, List.length_cons]
    omega

/-- The pages of a tree whose leaves hold entries with `g e` pages of their own. -/
theorem tree_pages (hY : PlainTree Y) (g : E → Nat) (hleaf : ∀ k, Y.Leaf k → k.pg.card ≤ 1 + ((ents k.sq).map g).sum) {K : Kid κ E}
    (hK : Tr Y K) : K.pg.card ≤ 1 + 2 * sepCount K.sq + ((ents K.sq).map g).sum := by
  induction hK with
  | leaf k hk => have := hleaf k hk; omega
  | node id m R hm hR hf ihm ihR =>
    have hlen : 1 ≤ R.length := by simpa using hY.fit _ hf
    have h1 := sepCount_rights g R ihR
    simp only [nodeKid, lpg_nil, lsq_nil, List.nil_append, Multiset.card_add, Multiset.card_singleton, Multiset.card_zero, sepCount_append,
      ents_append, List.map_append, List.sum_append]
    omega

theorem tree_pages_le (hY : PlainTree Y) (g : E → Nat) (hleaf : ∀ k, Y.Leaf k → k.pg.card ≤ 1 + ((ents k.sq).map g).sum) {K : Kid κ E}
    (hK : Bt Y K) : K.pg.card ≤ 1 + ((ents K.sq).map fun e => 2 + g e).sum := by
  have h1 := tree_pages hY g hleaf hK.tr
  have h2 := sepCount_le hK.full
  have h3 : ∀ l : List E, (l.map fun e => 2 + g e).sum = 2 * l.length + (l.map g).sum := by
    intro l
    induction l with
    | nil => rfl
    | cons e l ih => simp only [List.map_cons, List.sum_cons, List.length_cons, ih]; omega
  rw [h3]
  omega

theorem full_rights (g : E → Nat) : ∀ (R : Rights κ E), (∀ x ∈ R, x.2.pg.card + 1 ≤ ((ents x.2.sq).map fun e => 2 + g e).sum) →
    (rpg R).card + R.length ≤ ((ents (rsq R)).map fun e => 2 + g e).sum
  | [], _ => by simp
  | x :: R, h => by
    have h1 := h x (by simp)
    have h2 := full_rights g R fun y hy => h y (by simp [hy])
    have h4 : ((ents (rsq (x :: R))).map fun e => 2 + g e).sum =
        ((ents x.2.sq).map fun e => 2 + g e).sum + ((ents (rsq R)).map fun e => 2 + g e).sum := by
      rw [rsq_cons, ← List.cons_append, ents_append, List.map_append, List.sum_append]
      rfl
    rw [rpg_cons, Multiset.card_add, h4, List.length_cons]
    omega

/-- A tree without empty leaves. -/
theorem full_pages (hfit : ∀ keys, Y.fit keys → 1 ≤ keys.length) (g : E → Nat)
    (hleaf : ∀ k, Y.Leaf k → k.pg.card + 1 ≤ ((ents k.sq).map fun e => 2 + g e).sum) {K : Kid κ E} (hK : Tr Y K) :
    K.pg.card + 1 ≤ ((ents K.sq).map fun e => 2 + g e).sum := by
  induction hK with
  | leaf k hk => exact hleaf k hk
  | node id m R hm hR hf ihm ihR =>
    have hlen : 1 ≤ R.length := by simpa using hfit _ hf
    have h1 := full_rights g R ihR
    simp only [nodeKid, lpg_nil, lsq_nil, List.nil_append, Multiset.card_add, Multiset.card_singleton, Multiset.card_zero,
      ents_append, List.map_append, List.sum_append]
    omega

end

/-! ## Chains -/

theorem chain_card {ps root : Nat} {Q : Multiset (Nat × Node)} {bs : Bytes} (h : Chain ps root Q bs) (hp : 18 ≤ ps) :
    (root = 0 → Q = 0) ∧ Q.card ≤ bs.length / (ps - 17) + 1 := by
  induction h with
  | nil => simp
  | @cons p next Q data bs h0 _ _ hfull _ ih =>
    refine ⟨fun e => absurd e h0, ?_⟩
    obtain ⟨i1, i2⟩ := ih
    rw [Multiset.card_add, Multiset.card_singleton]
    rcases hfull with e | e
    · rw [i1 e]
      simp
    · rw [List.length_append, show data.length = ps - 17 by omega, Nat.add_div_left _ (by omega)]
      omega
  | empty h0 _ => exact ⟨fun e => absurd e h0, by simp⟩

theorem payload_bulk (r : Record) : (payload r).length = bulk r := by
  rw [payload_length]
  unfold bulk metadataSize
  congr 1
  cases r.event.metadata with
  | nil => rfl
  | cons e md =>
    simp only [List.isEmpty_cons, Bool.false_eq_true, if_false, reduceCtorEq]
    congr 2
    congr 1
    funext e
    omega

/-! ## The tree of events -/

theorem evLeaf_card {kw ps : Nat} {hps : 1024 ≤ ps} (k : Kid Nat (Nat × Record)) (h : (evLayout kw ps hps).Leaf k) :
    k.pg.card ≤ 1 + ((ents k.sq).map fun e => 1 + bulk e.2 / (ps - 17)).sum := by
  obtain ⟨es, hk, hok, -⟩ := h
  rw [hk]
  have : ∀ es : List EvEnt, (∀ e ∈ es, EvOk ps e) →
      (epg es).card ≤ (es.map fun e => 1 + bulk e.rcd / (ps - 17)).sum := by
    intro es
    induction es with
    | nil => intro _; simp
    | cons e es ih =>
      intro hes
      have h1 := ih fun x hx => hes x (by simp [hx])
      have h2 : e.pg.card ≤ 1 + bulk e.rcd / (ps - 17) := by
        rcases (hes e (by simp)).stored with ⟨-, h0, -⟩ | ⟨root, -, hch, -⟩
        · rw [h0]; simp
        · have := (chain_card hch (by omega)).2
          rw [payload_bulk] at this
          omega
      rw [epg_cons, Multiset.card_add, List.map_cons, List.sum_cons]
      omega
  have h1 := this es hok
  simp only [evKid, ents_map, Multiset.card_add, Multiset.card_singleton]
  rw [List.map_map]
  simp only [Function.comp_def]
  omega

/-! ## The index of tags -/

/-- A tree of `n` positions has less than `2 * n` pages. -/
theorem per_card {kw ps root : Nat} {hps : 1024 ≤ ps} {P : Multiset (Nat × Node)} {l : List Nat} (h : PerRep kw ps hps root P l) :
    P.card + 1 ≤ 2 * l.length := by
  obtain ⟨K, hK, -, rfl, rfl, -⟩ := h
  have := full_pages (fun _ h => (h : _ ∧ _).1) (fun _ => 0) (by
    rintro k ⟨l, hl, hk, -⟩
    rw [hk]
    have := List.length_pos_iff.mpr hl
    simp only [perKid, ents_map, Multiset.card_singleton]
    simp
    omega) hK.tr
  simpa [Nat.mul_comm] using this

theorem tgLeaf_card {kw ps : Nat} {hps : 1024 ≤ ps} {hkw : kw ≤ 16} (k : Kid Nat TagEnt) (h : (tgLayout kw ps hps hkw).Leaf k) :
    k.pg.card ≤ 1 + ((ents k.sq).map fun e => 2 * e.poss.length).sum := by
  obtain ⟨es, hk, hok, -⟩ := h
  rw [hk]
  have : ∀ es : List TagEnt, (∀ e ∈ es, TagOk kw ps hps e) → (tgPg es).card ≤ (es.map fun e => 2 * e.poss.length).sum := by
    intro es
    induction es with
    | nil => intro _; simp [tgPg_nil]
    | cons e es ih =>
      intro hes
      have h1 := ih fun x hx => hes x (by simp [hx])
      have h2 : e.pg.card ≤ 2 * e.poss.length := by
        rcases (hes e (by simp)).2 with ⟨-, -, h0, -⟩ | ⟨-, hr⟩
        · rw [h0]; simp
        · have := per_card hr
          omega
      rw [tgPg_cons, Multiset.card_add, List.map_cons, List.sum_cons]
      omega
  have h1 := this es hok
  simp only [tgKid, ents_map, Multiset.card_add, Multiset.card_singleton]
  omega

theorem length_idxOf (H : String → TagHash) (log : Log) (h : TagHash) : (idxOf H log h).length = (tagHashes H log).count h := by
  unfold idxOf tagHashes
  suffices ∀ n, ((numberFrom n log).flatMap fun x => (x.2.event.tags.filter fun t => decide (H t = h)).map fun _ => x.1).length =
      (log.flatMap fun r => r.event.tags.map H).count h from this 1
  induction log with
  | nil => intro n; rfl
  | cons r log ih =>
    intro n
    have h1 := ih (n + 1)
    have h2 : ∀ ts : List String, (ts.filter fun t => decide (H t = h)).length = (ts.map H).count h := by
      intro ts
      rw [List.count, List.countP_map, List.countP_eq_length_filter]
      rfl
    simp only [numberFrom, List.flatMap_cons, List.length_append, List.count_append, List.length_map, h2]
    omega

theorem sum_count_le {ks : List Nat} (hk : ks.Nodup) : ∀ l : List Nat, (ks.map fun k => l.count k).sum ≤ l.length
  | [] => by simp
  | x :: l => by
    have h1 := sum_count_le hk l
    have h2 : ∀ ks : List Nat, ks.Nodup → (ks.map fun k => (x :: l).count k).sum ≤ (ks.map fun k => l.count k).sum + 1 := by
      intro ks
      induction ks with
      | nil => intro _; simp
      | cons k ks ih =>
        intro hn
        obtain ⟨h3, h4⟩ := List.nodup_cons.mp hn
        simp only [List.map_cons, List.sum_cons]
        by_cases e : x = k
        · have : (ks.map fun k => (x :: l).count k) = ks.map fun k => l.count k := by
            refine List.map_congr_left fun k' hk' => ?_
            rw [List.count_cons_of_ne (by rintro rfl; exact h3 (e ▸ hk'))]
          rw [this, e, List.count_cons_self]
          omega
        · rw [List.count_cons_of_ne e]
          have := ih h4
          omega
    have := h2 ks hk
    rw [List.length_cons]
    omega

variable {c : Conf} {kw : Nat}

/-- C84: the tree of events, with the chains of data, has at most the pages granted to its events, and the empty root. -/
theorem C84_events {env : Env} (hc : ConfOk c kw) (hH : ∀ t, Codec.NormalizedTo kw (env.H t)) {d : PDb} {s : Spec.Db}
    (hd : (pageLawful hc hH).RepD d s) : ∃ h, d.header = .ok h ∧
      (pagesBelow c d h h.eventsRoot).length ≤ 1 + (s.log.map (eventRoom c.g.pageSize)).sum := by
  obtain ⟨hp, h, PE, PT, PK, PF, ix, F, L, S⟩ := hd
  refine ⟨h, L.header_eq, ?_⟩
  have hcard := L.card
  obtain ⟨K, hK, h1, h2, hq⟩ := L.trees.events
  have hat : ((pagesBelow c d h h.eventsRoot : List _) : Multiset (Nat × Node)) = K.pg := by
    rw [h2] at hcard
    rw [h1]
    exact events_at hK.tr (L.sees0.sub (le_of_eq_add (PF + (PT + PK)) (by rw [h2]; abel))) _ (by omega)
  have h3 := tree_pages_le plain_events _ evLeaf_card hK
  rw [← hat, Multiset.coe_card, hq.ents] at h3
  refine h3.trans (le_of_eq ?_)
  congr 1
  suffices ∀ n, ((numberFrom n s.log).map fun e => 2 + (1 + bulk e.2 / (c.g.pageSize - 17))).sum =
      (s.log.map (eventRoom c.g.pageSize)).sum from this 1
  induction s.log with
  | nil => intro n; rfl
  | cons r log ih =>
    intro n
    simp only [numberFrom, List.map_cons, List.sum_cons, ih, eventRoom]
    omega

/-- C84: the index of tags, with the trees of positions, has at most two pages for each hash and two for each tag of each
event, and the empty root. -/
theorem C84_tags {env : Env} (hc : ConfOk c kw) (hH : ∀ t, Codec.NormalizedTo kw (env.H t)) {d : PDb} {s : Spec.Db}
    (hd : (pageLawful hc hH).RepD d s) : ∃ h, d.header = .ok h ∧
      (pagesBelow c d h h.tagsRoot).length ≤ 1 + 2 * (tagHashes env.H s.log).dedup.length + 2 * (tagHashes env.H s.log).length := by
  obtain ⟨hp, h, PE, PT, PK, PF, ix, F, L, S⟩ := hd
  refine ⟨h, L.header_eq, ?_⟩
  have hcard := L.card
  obtain ⟨K, hK, h1, h2, hst, hidx⟩ := L.trees.tags
  have hat : ((pagesBelow c d h h.tagsRoot : List _) : Multiset (Nat × Node)) = K.pg := by
    rw [h2] at hcard
    rw [h1]
    exact tags_at hK.tr (L.sees0.sub (le_of_eq_add (PF + (PE + PK)) (by rw [h2]; abel))) _ (by omega)
  have h3 := tree_pages_le plain_tags _ tgLeaf_card hK
  rw [← hat, Multiset.coe_card] at h3
  have hsorted := strict_ents hst
  have hks : ((ents K.sq).map (·.key)).Nodup := by
    rw [List.nodup_iff_pairwise_ne, List.pairwise_map]
    exact hsorted.imp fun h => Nat.ne_of_lt h
  have hval : ∀ e ∈ ents K.sq, e.poss.length = (tagHashes env.H s.log).count e.key := by
    intro e he
    rcases hidx e.key with ⟨e', he', h5, h6⟩ | ⟨h5, -⟩
    · have : e' = e := List.inj_on_of_nodup_map hks he' he h5
      rw [← length_idxOf, ← L.index, h6, this]
    · exact absurd rfl (h5 e he)
  have hne : ∀ e ∈ ents K.sq, e.poss ≠ [] := by
    intro e he
    rcases (hK.tr.ents_all tgLeaf_ok e he).2 with ⟨-, -, -, h5, -⟩ | ⟨-, hr⟩
    · exact h5
    · intro h0
      have := per_card hr
      rw [h0] at this
      simp at this
  have hsub : (ents K.sq).length ≤ (tagHashes env.H s.log).dedup.length := by
    have := (hks.subperm (l₂ := (tagHashes env.H s.log).dedup) fun k hk => by
      obtain ⟨e, he, rfl⟩ := List.mem_map.mp hk
      rw [List.mem_dedup, ← List.count_pos_iff, ← hval e he]
      exact List.length_pos_iff.mpr (hne e he)).length_le
    simpa using this
  have hsum : ((ents K.sq).map fun e => 2 + 2 * e.poss.length).sum ≤
      2 * (ents K.sq).length + 2 * (((ents K.sq).map (·.key)).map fun k => (tagHashes env.H s.log).count k).sum := by
    have : ∀ l : List TagEnt, (∀ e ∈ l, e.poss.length = (tagHashes env.H s.log).count e.key) →
        (l.map fun e => 2 + 2 * e.poss.length).sum =
        2 * l.length + 2 * ((l.map (·.key)).map fun k => (tagHashes env.H s.log).count k).sum := by
      intro l
      induction l with
      | nil => intro _; rfl
      | cons e l ih =>
        intro hl
        have i1 := ih fun x hx => hl x (by simp [hx])
        have i2 := hl e (by simp)
        simp only [List.map_cons, List.sum_cons, List.length_cons, i1, i2]
        omega
    exact le_of_eq (this _ hval)
  have : (((ents K.sq).map (·.key)).map fun k => (tagHashes env.H s.log).count k).sum ≤ (tagHashes env.H s.log).length :=
    sum_count_le hks _
  omega

/-- C84: the table of tracked sources has at most two pages for each source, and the empty root. -/
theorem C84_tracking {env : Env} (hc : ConfOk c kw) (hH : ∀ t, Codec.NormalizedTo kw (env.H t)) {d : PDb} {s : Spec.Db}
    (hd : (pageLawful hc hH).RepD d s) {sources : List String} (hs : ∀ x, s.track x ≠ none → x ∈ sources) : ∃ h, d.header = .ok h ∧
      (h.trackRoot ≠ 0 → (pagesBelow c d h h.trackRoot).length ≤ 1 + 2 * sources.length) := by
  obtain ⟨hp, h, PE, PT, PK, PF, ix, F, L, S⟩ := hd
  refine ⟨h, L.header_eq, fun h0 => ?_⟩
  have hcard := L.card
  rcases L.trees.track with ⟨e, -⟩ | ⟨K, hK, h1, h2, hst, ht⟩
  · exact absurd e h0
  have hat : ((pagesBelow c d h h.trackRoot : List _) : Multiset (Nat × Node)) = K.pg := by
    rw [h2] at hcard
    rw [h1]
    exact track_at hK.tr (L.sees0.sub (le_of_eq_add (PF + (PE + PT)) (by rw [h2]; abel))) _ (by omega)
  have h3 := tree_pages_le plain_track (fun _ => 0) (by
    rintro k ⟨es, hk, -⟩
    rw [hk]
    simp [trKid]) hK
  rw [← hat, Multiset.coe_card] at h3
  have hks : ((ents K.sq).map (·.1)).Nodup := by
    rw [List.nodup_iff_pairwise_ne, List.pairwise_map]
    unfold ents
    rw [List.pairwise_filterMap]
    refine hst.imp ?_
    intro a b hab x hx y hy
    cases a <;> cases b <;> cases hx <;> cases hy
    rcases hab with hab | ⟨-, hab, -⟩
    · exact ne_of_lt hab
    · cases hab
  have hsub : (ents K.sq).length ≤ sources.length := by
    have := (hks.subperm (l₂ := sources) fun x hx => by
      obtain ⟨⟨x, p⟩, he, rfl⟩ := List.mem_map.mp hx
      exact hs x (by rw [(ht x p).mpr he]; simp)).length_le
    simpa using this
  have : ((ents K.sq).map fun _ => 2 + 0).sum = 2 * (ents K.sq).length := by simp [Nat.mul_comm]
  omega

/-! ## The free list -/

theorem tsn_card {kw ps root : Nat} {hps : 1024 ≤ ps} {P : Multiset (Nat × Node)} {l : List Nat} (h : TsnRep kw ps hps root P l) :
    P.card + 1 ≤ 2 * l.length := by
  obtain ⟨K, hK, -, rfl, rfl, -⟩ := h
  have := full_pages (fun _ h => (h : _ ∧ _).1) (fun _ => 0) (by
    rintro k ⟨l, hl, hk, -⟩
    rw [hk]
    have := List.length_pos_iff.mpr hl
    simp only [tsnKid, ents_map, Multiset.card_singleton]
    simp
    omega) hK
  simpa [Nat.mul_comm] using this

theorem free_card {kw ps root : Nat} {hps : 1024 ≤ ps} {P : Multiset (Nat × Node)} {es : List FreeEnt} (h : FreeTree kw ps hps root P es) :
    P.card ≤ 1 + 4 * (freeSet es).card := by
  rcases h with ⟨K, hK, -, rfl, rfl, -⟩ | ⟨rfl, rfl⟩
  · have hok : ∀ es : List FreeEnt, (∀ e ∈ es, FreeOk kw ps hps e) →
        (frPg es).card + 2 * es.length ≤ (es.map fun e => 2 + (2 * e.pids.length - 1)).sum ∧
        (es.map fun e => 2 + (2 * e.pids.length - 1)).sum ≤ 4 * (freeSet es).card := by
      intro es
      induction es with
      | nil => intro _; simp [freeSet]
      | cons e es ih =>
        intro hes
        obtain ⟨h1, h2⟩ := ih fun x hx => hes x (by simp [hx])
        have h3 : (freeSet (e :: es)).card = e.pids.length + (freeSet es).card := by simp [freeSet]
        have h4 : e.pg.card ≤ 2 * e.pids.length - 1 ∧ 1 ≤ e.pids.length := by
          rcases hes e (by simp) with ⟨-, -, h0, h5⟩ | ⟨-, -, hr⟩
          · exact ⟨by rw [h0]; simp, List.length_pos_iff.mpr h5⟩
          · have := tsn_card hr
            exact ⟨by omega, by omega⟩
        rw [frPg_cons, Multiset.card_add, h3, List.map_cons, List.sum_cons, List.length_cons]
        omega
    have h1 := full_pages (fun _ h => (h : _ ∧ _).1) (fun e => 2 * e.pids.length - 1) (by
      rintro k ⟨es, hne, hk, hes, -⟩
      rw [hk]
      have := (hok es hes).1
      have := List.length_pos_iff.mpr hne
      simp only [frKid, ents_map, Multiset.card_add, Multiset.card_singleton]
      omega) hK
    have h2 := (hok (ents K.sq) (hK.ents_all fun k hk => by
      obtain ⟨es, -, hk, hes, -⟩ := hk
      rw [hk]
      simpa [frKid] using hes)).2
    omega
  · simp

/-- C84: the tree of the free list has at most four pages for each free page, and the empty root. -/
theorem C84_free {env : Env} (hc : ConfOk c kw) (hH : ∀ t, Codec.NormalizedTo kw (env.H t)) {d : PDb} {s : Spec.Db}
    (hd : (pageLawful hc hH).RepD d s) : ∃ h, d.header = .ok h ∧
      (pagesBelow c d h h.freeRoot).length ≤ 1 + 4 * (freePages c d h).length := by
  obtain ⟨hp, h, PE, PT, PK, PF, ix, F, L, S⟩ := hd
  refine ⟨h, L.header_eq, ?_⟩
  have hcard := L.card
  have hfree := congrArg Multiset.card L.free_eq
  obtain ⟨es, hes, hF⟩ := L.free
  have hat : ((pagesBelow c d h h.freeRoot : List _) : Multiset (Nat × Node)) = PF :=
    free_at hes (L.sees0.sub (Multiset.le_add_right _ _)) _ (by omega)
  have h1 := free_card hes
  rw [← hF] at h1
  rw [Multiset.coe_card] at hfree
  rw [← Multiset.coe_card, hat, hfree]
  exact h1

/-- C84: the whole file is bounded by what is recorded and by the number of free pages. -/
theorem C84_file {env : Env} (hc : ConfOk c kw) (hH : ∀ t, Codec.NormalizedTo kw (env.H t)) {d : PDb} {s : Spec.Db}
    (hd : (pageLawful hc hH).RepD d s) {sources : List String} (hs : ∀ x, s.track x ≠ none → x ∈ sources) : ∃ h, d.header = .ok h ∧
      h.nextPage ≤ 6 + (s.log.map (eventRoom c.g.pageSize)).sum +
        2 * ((tagHashes env.H s.log).dedup.length + (tagHashes env.H s.log).length + sources.length) + 5 * (freePages c d h).length := by
  obtain ⟨h, hh, hE⟩ := C84_events hc hH hd
  obtain ⟨h1, hh1, hT⟩ := C84_tags hc hH hd
  obtain ⟨h2, hh2, hK⟩ := C84_tracking hc hH hd hs
  obtain ⟨h3, hh3, hF⟩ := C84_free hc hH hd
  rw [hh] at hh1 hh2 hh3
  cases hh1
  cases hh2
  cases hh3
  refine ⟨h, hh, ?_⟩
  obtain ⟨hp, h', PE, PT, PK, PF, ix, F, L, S⟩ := hd
  have := L.header_eq
  rw [hh] at this
  cases this
  have hacc := congrArg Multiset.card L.account
  rw [Multiset.card_add, ← L.used_eq, ← L.free_eq, Multiset.coe_card, Multiset.card_map, Multiset.coe_card] at hacc
  have hbody : (bodyIds h.nextPage).card = h.nextPage - 2 := by simp [bodyIds]
  have hused : (usedPages c d h).length = (pagesBelow c d h h.freeRoot).length + ((pagesBelow c d h h.eventsRoot).length +
      ((pagesBelow c d h h.tagsRoot).length + if h.trackRoot = 0 then 0 else (pagesBelow c d h h.trackRoot).length)) := by
    unfold usedPages reachable pagesBelow
    simp only [List.length_map, List.flatMap_cons, List.length_append]
    split <;> simp
  have hlim := L.limit
  split at hused
  · omega
  · next h0 => have := hK h0; omega

/-- C84: the same after any appends and crashes. -/
theorem C84_later {env : Env} (he : EnvOk env) (hc : ConfOk c kw) (hH : ∀ t, Codec.NormalizedTo kw (env.H t)) {d d' : PDb}
    {s : Spec.Db} (hd : (pageLawful hc hH).RepD d s) (hh : Happens c env d d') : ∃ s', (pageLawful hc hH).RepD d' s' ∧
      ∀ sources : List String, (∀ x, s'.track x ≠ none → x ∈ sources) → ∃ h, d'.header = .ok h ∧
      h.nextPage ≤ 6 + (s'.log.map (eventRoom c.g.pageSize)).sum +
        2 * ((tagHashes env.H s'.log).dedup.length + (tagHashes env.H s'.log).length + sources.length) + 5 * (freePages c d' h).length := by
  obtain ⟨s', hd', -⟩ := happens_grown he hc hH hh hd
  exact ⟨s', hd', fun sources hs => C84_file hc hH hd' hs⟩

section Examples

/-- Ten thousand bytes of data and one pair of metadata: a leaf, an internal page and three pages of 4079 bytes at most. -/
example : bulk ⟨⟨"T", List.replicate 10000 0, ["t"], none, [("k", "v")]⟩, none⟩ = 10008 ∧
    eventRoom 4096 ⟨⟨"T", List.replicate 10000 0, ["t"], none, [("k", "v")]⟩, none⟩ = 5 := by
  have e : bulk ⟨⟨"T", List.replicate 10000 0, ["t"], none, [("k", "v")]⟩, none⟩ = 10008 := by
    unfold bulk
    rw [if_neg (by simp), List.length_replicate]
    decide +kernel
  exact ⟨e, by rw [eventRoom, e]⟩

/-- The same hash twice in one event and once in the next: three entries of the index under it. -/
example : tagHashes (fun _ => 7) [⟨⟨"T", [], ["a", "b"], none, []⟩, none⟩, ⟨⟨"T", [], ["a"], none, []⟩, none⟩] = [7, 7, 7] ∧
    idxOf (fun _ => 7) [⟨⟨"T", [], ["a", "b"], none, []⟩, none⟩, ⟨⟨"T", [], ["a"], none, []⟩, none⟩] 7 = [1, 1, 2] := by decide

/-- Two small events with the same tag and one tracked source. -/
example : ∃ (d' : PDb) (h : Header), d'.header = .ok h ∧ (pagesBelow exConf d' h h.eventsRoot).length ≤ 7 ∧
    (pagesBelow exConf d' h h.tagsRoot).length ≤ 7 ∧ h.nextPage ≤ 20 + 5 * (freePages exConf d' h).length := by
  obtain ⟨d, d', -, -, -, hd'⟩ := exStored
  obtain ⟨h, h1, h2⟩ := C84_events (env := exConstEnv) exConf_ok exConstEnv_width hd'
  obtain ⟨h', h3, h4⟩ := C84_tags (env := exConstEnv) exConf_ok exConstEnv_width hd'
  obtain ⟨h'', h5, h6⟩ := C84_file (env := exConstEnv) exConf_ok exConstEnv_width hd' (sources := ["up"]) (by
    intro x hx
    by_contra hn
    apply hx
    simp only [List.mem_singleton] at hn
    simp [exAfter, effect, exReq, setTrack, hn, Spec.Db.empty])
  rw [h1] at h3 h5
  cases h3
  cases h5
  have e1 : (exAfter.log.map (eventRoom exConf.g.pageSize)).sum = 6 := by decide +kernel
  have e2 : tagHashes exConstEnv.H exAfter.log = [7, 7] := by decide +kernel
  have e3 : ([7, 7] : List TagHash).dedup = [7] := by decide
  rw [e1] at h2 h6
  rw [e2, e3] at h4 h6
  exact ⟨d', h, h1, h2, h4, h6⟩

end Examples

end Uma.Props
