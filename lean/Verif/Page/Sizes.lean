import Verif.Page.Reach
import Verif.Props.Codec

/-!
# Sizes and number ranges of tree pages

Pages of all kinds fit the page size except, possibly, pages of the tracking tree and those leaves of the tag index that have
exactly two tags, both with positions in the leaf (findings 6 and 11 in DESIGN.md).  All numbers in the pages are bounded by the counters of the header, the tracking positions and the
lengths of the events.
-/

namespace Uma.Page
open Uma.Codec Uma.Mvcc Uma.Spec

/-- Pages that a split may leave too large: those of the tracking tree, and leaves of the tag index with two tags, both with
positions in the leaf. -/
def splitByCount : Node → Bool
  | .tagsLeaf keys values => keys.length == 2 && values.all fun v => !v.positions.isEmpty
  | .trackLeaf _ _ | .trackInternal _ _ => true
  | _ => false

/-- Matching lengths, and numbers below `B`. -/
def Numbers (kw B : Nat) : Node → Prop
  | .header _ => False
  | .freeLeaf keys values => values.length = keys.length ∧ (∀ k ∈ keys, k < B) ∧
      ∀ v ∈ values, (∀ p ∈ v.pageIds, p < B) ∧ v.root < B
  | .freeInternal keys kids => kids.length = keys.length + 1 ∧ (∀ k ∈ keys, k < B) ∧ ∀ p ∈ kids, p < B
  | .eventLeaf keys values => values.length = keys.length ∧ (∀ k ∈ keys, k < B) ∧ ∀ v ∈ values, ValueFits v
  | .eventInternal keys kids => kids.length = keys.length + 1 ∧ (∀ k ∈ keys, k < B) ∧ ∀ p ∈ kids, p < B
  | .eventOverflow next _ => next < B
  | .tagsLeaf keys values => values.length = keys.length ∧ (∀ k ∈ keys, NormalizedTo kw k) ∧
      ∀ v ∈ values, (∀ p ∈ v.positions, p < B) ∧ v.root < B
  | .tagsInternal keys kids => kids.length = keys.length + 1 ∧ (∀ k ∈ keys, NormalizedTo kw k) ∧ ∀ p ∈ kids, p < B
  | .tagLeaf positions => ∀ p ∈ positions, p < B
  | .tagInternal keys kids => kids.length = keys.length + 1 ∧ (∀ k ∈ keys, k < B) ∧ ∀ p ∈ kids, p < B
  | .tsnLeaf ids => ∀ p ∈ ids, p < B
  | .tsnInternal keys kids => kids.length = keys.length + 1 ∧ (∀ k ∈ keys, k < B) ∧ ∀ p ∈ kids, p < B
  | .trackLeaf keys values => values.length = keys.length ∧ (∀ k ∈ keys, k.utf8ByteSize ≤ 255) ∧ ∀ p ∈ values, p < B
  | .trackInternal keys kids => kids.length = keys.length + 1 ∧ (∀ k ∈ keys, k.utf8ByteSize ≤ 255) ∧ ∀ p ∈ kids, p < B

theorem le_sum_map {α : Type} (f : α → Nat) {l : List α} {x : α} (h : x ∈ l) : f x ≤ (l.map f).sum := by
  obtain ⟨a, b, rfl⟩ := List.append_of_mem h
  simp; omega

theorem sum_ge_mul {α : Type} (f : α → Nat) (b : Nat) : ∀ l : List α, (∀ x ∈ l, b ≤ f x) → b * l.length ≤ (l.map f).sum
  | [], _ => by simp
  | x :: l, h => by
    have h1 := h x (by simp)
    have h2 := sum_ge_mul f b l fun y hy => h y (by simp [hy])
    simp only [List.map_cons, List.sum_cons, List.length_cons, Nat.mul_add, Nat.mul_one]
    omega

theorem mem_map_sum {α β : Type} {f : α → Multiset β} {x : β} : ∀ {l : List α}, x ∈ (l.map f).sum → ∃ y ∈ l, x ∈ f y
  | [], h => by simp at h
  | y :: l, h => by
    rw [List.map_cons, List.sum_cons, Multiset.mem_add] at h
    rcases h with h | h
    · exact ⟨y, by simp, h⟩
    · obtain ⟨z, hz, hx⟩ := mem_map_sum h
      exact ⟨z, by simp [hz], hx⟩

/-- A page that fits and whose numbers are in range can be written down. -/
theorem Numbers.fits {kw ps : Nat} {n : Node} (h : Numbers kw (2 ^ 64) n) (hs : pageSizeOf kw n ≤ ps) (hp : ps ≤ 65536) : NodeFits kw n := by
  cases n with
  | header => exact h.elim
  | freeLeaf keys values =>
    obtain ⟨h1, h2, h3⟩ := h
    simp only [pageSizeOf, pageHeaderSize, nodeSize] at hs
    refine ⟨by unfold U16; omega, h1, h2, fun v hv => ⟨?_, (h3 v hv).1, (h3 v hv).2⟩⟩
    have := le_sum_map (fun v : FreeValue => 2 + v.pageIds.length * 8 + 8) hv
    unfold U16; omega
  | freeInternal keys kids =>
    obtain ⟨h1, h2, h3⟩ := h
    simp only [pageSizeOf, pageHeaderSize, nodeSize] at hs
    exact ⟨by unfold U16; omega, by unfold U16; omega, h2, h3⟩
  | eventLeaf keys values =>
    obtain ⟨h1, h2, h3⟩ := h
    simp only [pageSizeOf, pageHeaderSize, nodeSize] at hs
    exact ⟨by unfold U16; omega, h1, h2, h3⟩
  | eventInternal keys kids =>
    obtain ⟨h1, h2, h3⟩ := h
    simp only [pageSizeOf, pageHeaderSize, nodeSize] at hs
    exact ⟨by unfold U16; omega, h1, h2, h3⟩
  | eventOverflow next data => exact h
  | tagsLeaf keys values =>
    obtain ⟨h1, h2, h3⟩ := h
    simp only [pageSizeOf, pageHeaderSize, nodeSize] at hs
    have hc := sum_ge_mul (fun v : TagsValue => 8 + 2 + v.positions.length * 8) 10 values fun v _ => by omega
    refine ⟨by unfold U16; omega, h1, h2, fun v hv => ⟨?_, (h3 v hv).1, (h3 v hv).2⟩⟩
    have := le_sum_map (fun v : TagsValue => 8 + 2 + v.positions.length * 8) hv
    unfold U16; omega
  | tagsInternal keys kids =>
    obtain ⟨h1, h2, h3⟩ := h
    simp only [pageSizeOf, pageHeaderSize, nodeSize] at hs
    exact ⟨by unfold U16; omega, h1, h2, h3⟩
  | tagLeaf positions =>
    simp only [pageSizeOf, pageHeaderSize, nodeSize] at hs
    exact ⟨by unfold U16; omega, h⟩
  | tagInternal keys kids =>
    obtain ⟨h1, h2, h3⟩ := h
    simp only [pageSizeOf, pageHeaderSize, nodeSize] at hs
    exact ⟨by unfold U16; omega, h1, h2, h3⟩
  | tsnLeaf ids =>
    simp only [pageSizeOf, pageHeaderSize, nodeSize] at hs
    exact ⟨by unfold U16; omega, h⟩
  | tsnInternal keys kids =>
    obtain ⟨h1, h2, h3⟩ := h
    simp only [pageSizeOf, pageHeaderSize, nodeSize] at hs
    exact ⟨by unfold U16; omega, by unfold U16; omega, h2, h3⟩
  | trackLeaf keys values =>
    obtain ⟨h1, h2, h3⟩ := h
    simp only [pageSizeOf, pageHeaderSize, nodeSize] at hs
    exact ⟨by unfold U16; omega, h1, fun k hk => by have := h2 k hk; omega, h3⟩
  | trackInternal keys kids =>
    obtain ⟨h1, h2, h3⟩ := h
    simp only [pageSizeOf, pageHeaderSize, nodeSize] at hs
    exact ⟨by unfold U16; omega, h1, fun k hk => by have := h2 k hk; omega, h3⟩

/-- What holds of the internal pages and of all pages at and below leaves holds of all pages. -/
theorem tr_pages {κ E : Type} {Y : Layout κ E} {I : Item κ E → Prop} {J : Nat → Prop} {G : Node → Prop}
    (hin : ∀ keys kids, kids.length = keys.length + 1 → Y.fit keys → (∀ k ∈ keys, I (.sep k)) → (∀ p ∈ kids, J p) →
      G (Y.ops.inner keys kids))
    (hleaf : ∀ k, Y.Leaf k → (∀ i ∈ k.sq, I i) → (∀ p ∈ ids k.pg, J p) → ∀ x ∈ k.pg, G x.2) {K : Kid κ E} (h : Tr Y K) :
    (∀ i ∈ K.sq, I i) → (∀ p ∈ ids K.pg, J p) → ∀ x ∈ K.pg, G x.2 := by
  induction h with
  | leaf k hk => exact hleaf k hk
  | node id m R hm hR hfit ihm ihR =>
    intro hI hJ x hx
    simp only [nodeKid, lpg_nil, zero_add, lsq_nil, List.nil_append, keysOf, kidsOf, List.map_nil] at hI hJ hx
    have hroot : ∀ k : Kid κ E, Tr Y k → k.id ∈ ids k.pg := fun k hk => by
      obtain ⟨n, hn, -⟩ := hk.root
      exact mem_ids_of hn
    have hsub : ∀ y ∈ R, y.2.pg ≤ rpg R := fun y hy => le_listSum (List.mem_map_of_mem (f := fun x => x.2.pg) hy)
    have hJm : ∀ p ∈ ids m.pg, J p := fun p hp => hJ p (by simp only [ids_add, Multiset.mem_add]; exact .inr (.inl hp))
    have hJR : ∀ y ∈ R, ∀ p ∈ ids y.2.pg, J p := fun y hy p hp => hJ p (by
      simp only [ids_add, Multiset.mem_add]
      exact .inr (.inr (Multiset.mem_of_le (Multiset.map_le_map (hsub y hy)) hp)))
    rcases Multiset.mem_add.mp hx with hx | hx
    · rw [Multiset.mem_singleton] at hx
      subst hx
      refine hin _ _ (by simp) hfit (fun k hk => ?_) (fun p hp => ?_)
      · obtain ⟨y, hy, rfl⟩ := List.mem_map.mp hk
        exact hI _ (List.mem_append_right _ (List.mem_flatMap.mpr ⟨y, hy, by simp⟩))
      · rcases List.mem_cons.mp hp with rfl | hp
        · exact hJm _ (hroot m hm)
        · obtain ⟨y, hy, rfl⟩ := List.mem_map.mp hp
          exact hJR y hy _ (hroot _ (hR y hy))
    · rcases Multiset.mem_add.mp hx with hx | hx
      · exact ihm (fun i hi => hI i (List.mem_append_left _ hi)) hJm x hx
      · unfold rpg at hx
        obtain ⟨y, hy, hxP⟩ := mem_map_sum hx
        exact ihR y hy (fun i hi => hI i (List.mem_append_right _ (List.mem_flatMap.mpr ⟨y, hy, by simp [hi]⟩))) (hJR y hy) x hxP

/-- Leaves of the tag index. -/
def isTags : Node → Bool
  | .tagsLeaf _ _ => true
  | _ => false

/-- In range, and of the right size unless split by count; leaves of the tag index are never larger by more than a position. -/
def Proper (kw ps : Nat) (n : Node) : Prop :=
  Numbers kw (2 ^ 64) n ∧ (splitByCount n = false → pageSizeOf kw n ≤ ps) ∧ (isTags n = true → pageSizeOf kw n ≤ ps + 8)

/-- Numbers that come with an event. -/
def Moderate (r : Record) : Prop := r.event.data.length < 2 ^ 64 ∧ ∀ t ∈ r.tracking, t.position < 2 ^ 64

variable {kw ps : Nat} {hps : 1024 ≤ ps} {hkw : kw ≤ 16}

theorem chain_proper {root : Nat} {Q : Multiset (Nat × Node)} {bs : Bytes} (h : Chain ps root Q bs) :
    (∀ p ∈ ids Q, p < 2 ^ 64) → (root = 0 ∨ root ∈ ids Q) ∧ ∀ x ∈ Q, Proper kw ps x.2 := by
  induction h with
  | nil => exact fun _ => ⟨.inl rfl, by simp⟩
  | @cons p next Q data bs hp hd hl _ _ ih =>
    intro hj
    obtain ⟨h1, h2⟩ := ih fun p hp => hj p (by simp only [ids_add, Multiset.mem_add]; exact .inr hp)
    refine ⟨.inr (by simp [ids]), fun x hx => ?_⟩
    rcases Multiset.mem_add.mp hx with hx | hx
    · rw [Multiset.mem_singleton] at hx
      subst hx
      refine ⟨?_, fun _ => by simp [pageSizeOf, pageHeaderSize, nodeSize]; omega, nofun⟩
      show next < _
      rcases h1 with h1 | h1
      · omega
      · exact hj _ (by simp only [ids_add, Multiset.mem_add]; exact .inr h1)
    · exact h2 x hx
  | @empty p hp hl =>
    intro hj
    refine ⟨.inr (by simp [ids]), fun x hx => ?_⟩
    rw [Multiset.mem_singleton] at hx
    subst hx
    exact ⟨by show 0 < _; omega, fun _ => by simp [pageSizeOf, pageHeaderSize, nodeSize]; omega, nofun⟩

theorem metadata_bound {m : List (String × String)} (h : Props.MetadataOk m) : metadataSize m < 2 ^ 64 := by
  obtain ⟨h1, -, h2⟩ := h
  have := sum_le_mul (fun e : String × String => 2 + e.1.utf8ByteSize + 2 + e.2.utf8ByteSize) 131074 m fun e he => by
    have := h2 e he; omega
  unfold metadataSize
  omega

theorem events_proper (hp : ps ≤ 65536) {K : Kid Nat (Nat × Record)} (h : Tr (evLayout kw ps hps) K) {log : Log} (hq : EvSeq K.sq log)
    (hlen : log.length < 2 ^ 64) (hlog : ∀ r ∈ log, Moderate r) (hid : ∀ p ∈ ids K.pg, p < 2 ^ 64) : ∀ x ∈ K.pg, Proper kw ps x.2 := by
  have hent : ∀ e, .ent e ∈ K.sq → e.1 < 2 ^ 64 ∧ Moderate e.2 := by
    rintro ⟨pos, r⟩ he
    have he := mem_ents.mpr he
    rw [hq.ents] at he
    obtain ⟨h1, h2⟩ := Db.mem_numberFrom.mp he
    have := (List.getElem?_eq_some_iff.mp h2).1
    exact ⟨by show pos < _; omega, hlog _ (List.mem_of_getElem? h2)⟩
  refine tr_pages (I := fun i => match i with | .ent e => e.1 < 2 ^ 64 ∧ Moderate e.2 | .sep k => k < 2 ^ 64) (J := fun p => p < 2 ^ 64)
    ?_ ?_ h ?_ hid
  · intro keys kids hl hfit hk hj
    refine ⟨⟨hl, hk, hj⟩, fun _ => ?_, nofun⟩
    show pageSizeOf kw (.eventInternal keys kids) ≤ ps
    rw [evInner_size _ _ _ hl]; exact hfit.2
  · rintro k ⟨es, hk, hok, hsz⟩ hI hJ x hx
    have hpg : k.pg = {(k.id, evNode es)} + epg es := by rw [hk]; rfl
    have hsq : k.sq = (es.map EvEnt.pair).map .ent := by rw [hk]; rfl
    rw [hpg] at hx hJ
    have hes : ∀ e ∈ es, e.pos < 2 ^ 64 ∧ Moderate e.rcd := fun e he =>
      hI (.ent e.pair) (by rw [hsq]; exact List.mem_map_of_mem (List.mem_map_of_mem he))
    have hpe : ∀ e ∈ es, e.pg ≤ epg es := fun e he => le_listSum (List.mem_map_of_mem he)
    have hje : ∀ e ∈ es, ∀ p ∈ ids e.pg, p < 2 ^ 64 := fun e he p hp => hJ p (by
      simp only [ids_add, Multiset.mem_add]
      exact .inr (Multiset.mem_of_le (Multiset.map_le_map (hpe e he)) hp))
    rcases Multiset.mem_add.mp hx with hx | hx
    · rw [Multiset.mem_singleton] at hx
      subst hx
      refine ⟨⟨by simp, fun k hk => ?_, fun v hv => ?_⟩, fun _ => hsz, nofun⟩
      · obtain ⟨e, he, rfl⟩ := List.mem_map.mp hk
        exact (hes e he).1
      · obtain ⟨e, he, rfl⟩ := List.mem_map.mp hv
        obtain ⟨hm1, hm2⟩ := (hes e he).2
        have hv := (hok e he).valid
        obtain ⟨v1, v2, -⟩ := (Props.C26_validation ps e.rcd).1.mp hv
        rcases (hok e he).stored with ⟨h1, -, h3⟩ | ⟨root, h1, h2, h3⟩
        · rw [h1]
          exact inline_fits hp h3 v1 ((Core.validateMetadata_ok _).mpr v2) hm2
        · rw [h1]
          refine overflow_fits hp h3 v1 hm2 hm1 ?_ (metadata_bound v2)
          rcases (chain_proper (kw := kw) h2 (hje e he)).1 with h | h
          · rw [h]; show 0 < _; omega
          · exact hje e he _ h
    · obtain ⟨e, he, hx⟩ := mem_map_sum hx
      rcases (hok e he).stored with ⟨-, h2, -⟩ | ⟨root, -, h2, -⟩
      · rw [h2] at hx; simp at hx
      · exact (chain_proper h2 (hje e he)).2 x hx
  · intro i hi
    cases i with
    | ent e => exact hent e hi
    | sep k =>
      obtain ⟨a, b, hab⟩ := List.append_of_mem hi
      obtain ⟨e, b', rfl, hk⟩ := hq.sep a k b hab
      have := (hent e (by rw [hab]; simp)).1
      show k < _
      omega

theorem per_proper {root : Nat} {P : Multiset (Nat × Node)} {l : List Nat} (h : PerRep kw ps hps root P l) (hl : ∀ p ∈ l, p < 2 ^ 64)
    (hid : ∀ p ∈ ids P, p < 2 ^ 64) : root ∈ ids P ∧ ∀ x ∈ P, Proper kw ps x.2 := by
  obtain ⟨K, hK, rfl, rfl, rfl, -, hsep⟩ := h
  have hent : ∀ e, .ent e ∈ K.sq → e < 2 ^ 64 := fun e he => hl e (mem_ents.mpr he)
  refine ⟨by obtain ⟨n, hn, -⟩ := hK.tr.root; exact mem_ids_of hn, ?_⟩
  refine tr_pages (I := fun i => match i with | .ent e => e < 2 ^ 64 | .sep k => k < 2 ^ 64) (J := fun p => p < 2 ^ 64) ?_ ?_ hK.tr ?_ hid
  · intro keys kids hl hfit hk hj
    refine ⟨⟨hl, hk, hj⟩, fun _ => ?_, nofun⟩
    show pageSizeOf kw (.tagInternal keys kids) ≤ ps
    rw [perInner_size _ _ _ hl]; exact hfit.2
  · rintro k ⟨l, -, hk, hsz⟩ hI hJ x hx
    have hpg : k.pg = {(k.id, .tagLeaf l)} := by rw [hk]; rfl
    have hsq : k.sq = l.map .ent := by rw [hk]; rfl
    rw [hpg, Multiset.mem_singleton] at hx
    subst hx
    exact ⟨fun p hp => hI (.ent p) (by rw [hsq]; exact List.mem_map_of_mem hp), fun _ => by rw [tagLeaf_size]; exact hsz, nofun⟩
  · intro i hi
    cases i with
    | ent e => exact hent e hi
    | sep k =>
      obtain ⟨a, b, hab⟩ := List.append_of_mem hi
      obtain ⟨e, b', rfl, hk⟩ := hsep a k b hab
      have := hent e (by rw [hab]; simp)
      simp only [id] at hk
      show k < _
      omega

theorem TgFit.small {es : List TagEnt} (h : TgFit kw ps es) (hs : splitByCount (tgNode es) = false) : pageSizeOf kw (tgNode es) ≤ ps := by
  rcases h with h | ⟨h1, h2, -⟩
  · exact h
  · exfalso
    simp only [tgNode, splitByCount, List.length_map, h1, beq_self_eq_true, Bool.true_and, ← Bool.not_eq_true, List.all_eq_true] at hs
    refine hs fun v hv => ?_
    obtain ⟨e, he, rfl⟩ := List.mem_map.mp hv
    have := h2 e he
    simp [TagEnt.val, this]

theorem TgFit.slack {es : List TagEnt} (h : TgFit kw ps es) : pageSizeOf kw (tgNode es) ≤ ps + 8 := by
  rcases h with h | ⟨-, -, h⟩ <;> omega

theorem tags_proper {root : Nat} {P : Multiset (Nat × Node)} {ix : Nat → List Nat} (h : TagsRep kw ps hps hkw root P ix)
    (hl : ∀ t, ∀ p ∈ ix t, p < 2 ^ 64) (hid : ∀ p ∈ ids P, p < 2 ^ 64) : ∀ x ∈ P, Proper kw ps x.2 := by
  obtain ⟨K, hK, rfl, rfl, hst, hix⟩ := h
  have hent : ∀ e : TagEnt, .ent e ∈ K.sq → ∀ p ∈ e.poss, p < 2 ^ 64 := by
    intro e he p hp
    rcases hix e.key with ⟨e', he', hk, hpos⟩ | ⟨hno, -⟩
    · have : e' = e := by
        by_contra hne
        have hnd : ∀ {l : List TagEnt}, l.Pairwise (fun a b => a.key < b.key) → ∀ a ∈ l, ∀ b ∈ l, a.key = b.key → a = b := by
          intro l h
          induction h with
          | nil => simp
          | @cons x l hx _ ih =>
            intro a ha b hb hab
            rcases List.mem_cons.mp ha with h1 | h1 <;> rcases List.mem_cons.mp hb with h2 | h2
            · rw [h1, h2]
            · have := hx _ h2; rw [h1] at hab; omega
            · have := hx _ h1; rw [h2] at hab; omega
            · exact ih a h1 b h2 hab
        exact hne (hnd (strict_ents hst) e' he' e (mem_ents.mpr he) hk)
      subst this
      exact hl e'.key p (by rw [hpos]; exact hp)
    · exact absurd rfl (hno e (mem_ents.mpr he))
  refine tr_pages (I := fun i => match i with | .ent e => ∀ p ∈ e.poss, p < 2 ^ 64 | .sep k => True) (J := fun p => p < 2 ^ 64) ?_ ?_ hK.tr ?_ hid
  · intro keys kids hl hfit hk hj
    refine ⟨⟨hl, hfit.2.1, hj⟩, fun _ => ?_, nofun⟩
    show pageSizeOf kw (.tagsInternal keys kids) ≤ ps
    rw [tagsInner_size _ _ _ hl]; exact hfit.2.2
  · rintro k ⟨es, hk, hok, hfit⟩ hI hJ x hx
    have hpg : k.pg = {(k.id, tgNode es)} + tgPg es := by rw [hk]; rfl
    have hsq : k.sq = es.map .ent := by rw [hk]; rfl
    rw [hpg] at hx hJ
    have hes : ∀ e ∈ es, ∀ p ∈ e.poss, p < 2 ^ 64 := fun e he => hI (.ent e) (by rw [hsq]; exact List.mem_map_of_mem he)
    have hpe : ∀ e ∈ es, e.pg ≤ tgPg es := fun e he => le_listSum (List.mem_map_of_mem he)
    have hje : ∀ e ∈ es, ∀ p ∈ ids e.pg, p < 2 ^ 64 := fun e he p hp => hJ p (by
      simp only [ids_add, Multiset.mem_add]
      exact .inr (Multiset.mem_of_le (Multiset.map_le_map (hpe e he)) hp))
    rcases Multiset.mem_add.mp hx with hx | hx
    · rw [Multiset.mem_singleton] at hx
      subst hx
      refine ⟨⟨by simp, fun k hk => ?_, fun v hv => ?_⟩, hfit.small, fun _ => hfit.slack⟩
      · obtain ⟨e, he, rfl⟩ := List.mem_map.mp hk
        exact (hok e he).1
      · obtain ⟨e, he, rfl⟩ := List.mem_map.mp hv
        rcases (hok e he).2 with ⟨h1, h2, -⟩ | ⟨h1, h2⟩
        · exact ⟨by show ∀ p ∈ e.inl, _; rw [h2]; exact hes e he, by show e.root < _; rw [h1]; omega⟩
        · exact ⟨by show ∀ p ∈ e.inl, _; rw [h1]; simp, hje e he _ (per_proper h2 (hes e he) (hje e he)).1⟩
    · obtain ⟨e, he, hx⟩ := mem_map_sum hx
      rcases (hok e he).2 with ⟨-, -, h2, -⟩ | ⟨-, h2⟩
      · rw [h2] at hx; simp at hx
      · exact (per_proper h2 (hes e he) (hje e he)).2 x hx
  · intro i hi
    cases i with
    | ent e => exact hent e hi
    | sep k => trivial

theorem track_proper {root : Nat} {P : Multiset (Nat × Node)} {t : String → Option Nat} (h : TrackRep kw ps hps root P t)
    (hl : ∀ s p, t s = some p → p < 2 ^ 64) (hid : ∀ p ∈ ids P, p < 2 ^ 64) : ∀ x ∈ P, Proper kw ps x.2 := by
  rcases h with ⟨-, rfl, -⟩ | ⟨K, hK, rfl, rfl, -, hq⟩
  · simp
  refine tr_pages (I := fun i => match i with | .ent e => e.2 < 2 ^ 64 | .sep k => True) (J := fun p => p < 2 ^ 64) ?_ ?_ hK.tr ?_ hid
  · intro keys kids hl hfit hk hj
    exact ⟨⟨hl, hfit.2, hj⟩, nofun, nofun⟩
  · rintro k ⟨es, hk, hok⟩ hI hJ x hx
    have hpg : k.pg = {(k.id, trNode es)} := by rw [hk]; rfl
    have hsq : k.sq = es.map .ent := by rw [hk]; rfl
    rw [hpg, Multiset.mem_singleton] at hx
    subst hx
    refine ⟨⟨by simp, fun k hk => ?_, fun v hv => ?_⟩, nofun, nofun⟩
    · obtain ⟨e, he, rfl⟩ := List.mem_map.mp hk
      exact hok e he
    · obtain ⟨e, he, rfl⟩ := List.mem_map.mp hv
      exact hI (.ent e) (by rw [hsq]; exact List.mem_map_of_mem he)
  · intro i hi
    cases i with
    | ent e => exact hl e.1 e.2 ((hq _ _).mpr (mem_ents.mpr hi))
    | sep k => trivial

/-- A tree without empty leaves ends with an entry. -/
theorem tr_ends {κ E : Type} {Y : Layout κ E} (hleaf : ∀ k, Y.Leaf k → ∃ a e, k.sq = a ++ [.ent e]) {K : Kid κ E} (h : Tr Y K) :
    ∃ a e, K.sq = a ++ [.ent e] := by
  induction h with
  | leaf k hk => exact hleaf k hk
  | node id m R hm hR hfit ihm ihR =>
    simp only [nodeKid, lsq_nil, List.nil_append]
    rcases List.eq_nil_or_concat R with rfl | ⟨R', y, rfl⟩
    · simpa using ihm
    · obtain ⟨a, e, h⟩ := ihR y (by simp)
      refine ⟨m.sq ++ rsq R' ++ .sep y.1 :: a, e, ?_⟩
      simp [rsq, h]

/-- Separators are bounded by an entry. -/
theorem sep_le {E : Type} {f : E → Nat} {sq a : List (Item Nat E)} {e : E} (h : Strict f sq) (he : sq = a ++ [.ent e]) {k : Nat}
    (hk : .sep k ∈ sq) : k ≤ f e := by
  rw [he] at hk
  rcases List.mem_append.mp hk with hk | hk
  · rw [he] at h
    have := (List.pairwise_append.mp h.weak).2.2 _ hk (.ent e) (by simp)
    exact this
  · simp at hk

theorem tsn_proper {root : Nat} {P : Multiset (Nat × Node)} {l : List Nat} (h : TsnRep kw ps hps root P l) (hl : ∀ p ∈ l, p < 2 ^ 64)
    (hid : ∀ p ∈ ids P, p < 2 ^ 64) : root ∈ ids P ∧ ∀ x ∈ P, Proper kw ps x.2 := by
  obtain ⟨K, hK, rfl, rfl, rfl, hst⟩ := h
  have hent : ∀ e, .ent e ∈ K.sq → e < 2 ^ 64 := fun e he => hl e (mem_ents.mpr he)
  obtain ⟨a, e, hae⟩ := tr_ends (Y := tsnLayout kw ps hps) (fun k hk => by
    obtain ⟨l, hne, hk, -⟩ := hk
    rcases List.eq_nil_or_concat l with rfl | ⟨l', y, rfl⟩
    · exact absurd rfl hne
    · exact ⟨l'.map .ent, y, by rw [hk]; simp [tsnKid]⟩) hK
  refine ⟨by obtain ⟨n, hn, -⟩ := hK.root; exact mem_ids_of hn, ?_⟩
  refine tr_pages (I := fun i => match i with | .ent e => e < 2 ^ 64 | .sep k => k < 2 ^ 64) (J := fun p => p < 2 ^ 64) ?_ ?_ hK ?_ hid
  · intro keys kids hl hfit hk hj
    refine ⟨⟨hl, hk, hj⟩, fun _ => ?_, nofun⟩
    show pageSizeOf kw (.tsnInternal keys kids) ≤ ps
    rw [tsnInner_size _ _ _ hl]; exact hfit.2
  · rintro k ⟨l, -, hk, hsz⟩ hI hJ x hx
    have hpg : k.pg = {(k.id, .tsnLeaf l)} := by rw [hk]; rfl
    have hsq : k.sq = l.map .ent := by rw [hk]; rfl
    rw [hpg, Multiset.mem_singleton] at hx
    subst hx
    exact ⟨fun p hp => hI (.ent p) (by rw [hsq]; exact List.mem_map_of_mem hp), fun _ => by rw [tsnLeaf_size]; exact hsz, nofun⟩
  · intro i hi
    cases i with
    | ent e => exact hent e hi
    | sep k =>
      have h1 := sep_le hst hae hi
      have h2 := hent e (by rw [hae]; simp)
      simp only [id] at h1
      show k < _
      omega

theorem free_proper {root : Nat} {P : Multiset (Nat × Node)} {es : List FreeEnt} (h : FreeTree kw ps hps root P es)
    (hl : ∀ x ∈ freeSet es, x.1 < 2 ^ 64 ∧ x.2 < 2 ^ 64) (hid : ∀ p ∈ ids P, p < 2 ^ 64) : ∀ x ∈ P, Proper kw ps x.2 := by
  rcases h with ⟨K, hK, rfl, rfl, rfl, hst⟩ | ⟨rfl, rfl⟩
  swap
  · intro x hx
    rw [Multiset.mem_singleton] at hx
    subst hx
    exact ⟨⟨by simp, by simp, by simp⟩, fun _ => by simp [frNode, pageSizeOf, pageHeaderSize, nodeSize]; omega, nofun⟩
  have hent : ∀ e : FreeEnt, .ent e ∈ K.sq → ∀ p ∈ e.pids, p < 2 ^ 64 ∧ e.tsn < 2 ^ 64 := fun e he p hp =>
    hl (p, e.tsn) (mem_freeSet.mpr ⟨e, mem_ents.mpr he, rfl, hp⟩)
  have hne : ∀ e : FreeEnt, .ent e ∈ K.sq → e.pids ≠ [] := fun e he =>
    FreeTree.ne_nil (kw := kw) (hps := hps) (root := K.id) (P := K.pg) (.inl ⟨K, hK, rfl, rfl, rfl, hst⟩) e (mem_ents.mpr he)
  have htsn : ∀ e : FreeEnt, .ent e ∈ K.sq → e.tsn < 2 ^ 64 := fun e he => by
    obtain ⟨p, hp⟩ := List.exists_mem_of_ne_nil _ (hne e he)
    exact (hent e he p hp).2
  obtain ⟨a, e, hae⟩ := tr_ends (Y := frLayout kw ps hps) (fun k hk => by
    obtain ⟨l, hne, hk, -⟩ := hk
    rcases List.eq_nil_or_concat l with rfl | ⟨l', y, rfl⟩
    · exact absurd rfl hne
    · exact ⟨l'.map .ent, y, by rw [hk]; simp [frKid]⟩) hK
  refine tr_pages (I := fun i => match i with
      | .ent e => e.tsn < 2 ^ 64 ∧ ∀ p ∈ e.pids, p < 2 ^ 64
      | .sep k => k < 2 ^ 64) (J := fun p => p < 2 ^ 64) ?_ ?_ hK ?_ hid
  · intro keys kids hl hfit hk hj
    refine ⟨⟨hl, hk, hj⟩, fun _ => ?_, nofun⟩
    show pageSizeOf kw (.freeInternal keys kids) ≤ ps
    rw [freeInner_size _ _ _ hl]; exact hfit.2
  · rintro k ⟨es, -, hk, hok, hsz⟩ hI hJ x hx
    have hpg : k.pg = {(k.id, frNode es)} + frPg es := by rw [hk]; rfl
    have hsq : k.sq = es.map .ent := by rw [hk]; rfl
    rw [hpg] at hx hJ
    have hes : ∀ e ∈ es, e.tsn < 2 ^ 64 ∧ ∀ p ∈ e.pids, p < 2 ^ 64 := fun e he => hI (.ent e) (by rw [hsq]; exact List.mem_map_of_mem he)
    have hje : ∀ e ∈ es, ∀ p ∈ ids e.pg, p < 2 ^ 64 := fun e he p hp => hJ p (by
      simp only [ids_add, Multiset.mem_add]
      exact .inr (Multiset.mem_of_le (Multiset.map_le_map (mem_frPg he)) hp))
    rcases Multiset.mem_add.mp hx with hx | hx
    · rw [Multiset.mem_singleton] at hx
      subst hx
      refine ⟨⟨by simp, fun k hk => ?_, fun v hv => ?_⟩, fun _ => hsz, nofun⟩
      · obtain ⟨e, he, rfl⟩ := List.mem_map.mp hk
        exact (hes e he).1
      · obtain ⟨e, he, rfl⟩ := List.mem_map.mp hv
        rcases hok e he with ⟨h1, h2, -⟩ | ⟨-, h1, h2⟩
        · exact ⟨by show ∀ p ∈ e.inl, _; rw [h2]; exact (hes e he).2, by show e.root < _; rw [h1]; omega⟩
        · exact ⟨by show ∀ p ∈ e.inl, _; rw [h1]; simp, hje e he _ (tsn_proper h2 (hes e he).2 (hje e he)).1⟩
    · obtain ⟨e, he, hx⟩ := mem_map_sum hx
      rcases hok e he with ⟨-, -, h2, -⟩ | ⟨-, -, h2⟩
      · rw [h2] at hx; simp at hx
      · exact (tsn_proper h2 (hes e he).2 (hje e he)).2 x hx
  · intro i hi
    cases i with
    | ent e => exact ⟨htsn e hi, fun p hp => (hent e hi p hp).1⟩
    | sep k =>
      have h1 := sep_le hst hae hi
      have h2 := htsn e (by rw [hae]; simp)
      show k < _
      omega

/-- Numbers that come with requests are machine numbers. -/
structure Machine (s : Spec.Db) : Prop where
  log : ∀ r ∈ s.log, Moderate r
  track : ∀ src p, s.track src = some p → p < 2 ^ 64

section Commit
variable {c : Conf} {hc : ConfOk c kw} {H : String → Db.TagHash} {d : PDb} {hp : HPage} {h : Header} {o : Option Nat}
  {PE PT PK PF PE' PT' PK' PF' : Multiset (Nat × Node)} {ix ix' : Nat → List Nat} {F : Multiset (Nat × Nat)} {N : Multiset Nat}
  {s s' : Spec.Db} {w : Writer}

theorem FreeTree.root {kw ps : Nat} {hps : 1024 ≤ ps} {root : Nat} {P : Multiset (Nat × Node)} {es : List FreeEnt}
    (h : FreeTree kw ps hps root P es) : root ∈ ids P := by
  rcases h with ⟨K, hK, rfl, rfl, -⟩ | ⟨rfl, rfl⟩
  · obtain ⟨n, hn, -⟩ := hK.root; exact mem_ids_of hn
  · simp [ids]

/-- Counters of the transaction that are not exhausted. -/
structure Counters (w : Writer) : Prop where
  page : w.nextPage < 2 ^ 64
  pos : w.nextPos < 2 ^ 64
  tsn : w.tsn < 2 ^ 64

/-- Every page a transaction hands to the disk holds machine numbers, and fits unless it is of a kind split by count. -/
theorem Ready.proper (R : Ready c hc H d h F o w PE' PT' PK' PF' ix' N s') (hF : ∀ x ∈ F, x.2 ≤ h.tsn) (hbig : c.g.pageSize ≤ 65536) (hn : Counters w)
    (hm : Machine s') : ∀ x ∈ w.dirty, Proper kw c.g.pageSize x.2 := by
  have hown := R.own
  have hid : ∀ p ∈ ids (PF' + (PE' + PT' + PK')), p < 2 ^ 64 := fun p hp => by
    have := (hown.lt hp).2; have := hn.page; omega
  have hsub : ∀ {Q}, Q ≤ PF' + (PE' + PT' + PK') → ∀ p ∈ ids Q, p < 2 ^ 64 := fun hQ p hp =>
    hid p (Multiset.mem_of_le (Multiset.map_le_map hQ) hp)
  have hF' : PF' ≤ PF' + (PE' + PT' + PK') := Multiset.le_add_right _ _
  have hE' : PE' ≤ PF' + (PE' + PT' + PK') := by
    refine le_trans ?_ (Multiset.le_add_left _ _); rw [add_assoc]; exact Multiset.le_add_right _ _
  have hT' : PT' ≤ PF' + (PE' + PT' + PK') := by
    refine le_trans ?_ (Multiset.le_add_left _ _); rw [add_assoc, add_left_comm]; exact Multiset.le_add_right _ _
  have hK' : PK' ≤ PF' + (PE' + PT' + PK') := le_trans (Multiset.le_add_left _ _) (Multiset.le_add_left _ _)
  have hpos := R.next
  have hlen : s'.log.length + 1 < 2 ^ 64 := by rw [← hpos]; exact hn.pos
  rintro ⟨p, n⟩ hx
  have hget : w.dirty.get p = some n := (Pages.get_mem hown.dirtyNodup).mpr hx
  have hd : p ∈ w.dirty.ids := Pages.mem_ids.mpr ⟨n, hget⟩
  obtain ⟨n', hn'⟩ := mem_ids.mp (hown.dirtyIn p hd)
  have := hown.dirty_eq hn' (Pages.mem_ids.mp hd)
  rw [hget] at this
  cases this
  simp only [Multiset.mem_add] at hn'
  rcases hn' with hn' | (hn' | hn') | hn'
  · obtain ⟨Old, hi⟩ := R.inv
    obtain ⟨es, hes, -, hfs⟩ := hi.rep
    refine free_proper hes (fun x hx => ?_) (hsub hF') _ hn'
    rw [← hfs] at hx
    have hmem : x.1 ∈ bodyIds w.nextPage ∧ x.2 ≤ w.tsn := by
      rw [← hown.account]
      rw [R.reused, List.nil_append, Multiset.mem_add] at hx
      rcases hx with hx | hx
      · constructor
        · simp only [Multiset.mem_add]
          exact .inl (.inr (Multiset.mem_coe.mpr (List.mem_map_of_mem (Multiset.mem_coe.mp hx))))
        · have h1 := hF x (R.queue x (Multiset.mem_coe.mp hx))
          have := R.tsn
          omega
      · constructor
        · simp only [Multiset.mem_add]
          exact .inr (Multiset.mem_map_of_mem _ hx)
        · exact hi.le x hx
    have h1 := (mem_bodyIds.mp hmem.1).2
    have := hn.page
    have := hn.tsn
    omega
  · obtain ⟨K, hK, -, rfl, hq⟩ := R.trees.events
    exact events_proper hbig hK hq (by omega) hm.log (hsub hE') _ hn'
  · refine tags_proper R.trees.tags (fun t p hp => ?_) (hsub hT') _ hn'
    obtain ⟨r, hr, -⟩ := Db.mem_idxOf.mp (R.index t ▸ hp)
    obtain ⟨h1, h2⟩ := Db.mem_numberFrom.mp hr
    have := (List.getElem?_eq_some_iff.mp h2).1
    omega
  · exact track_proper R.trees.track hm.track (hsub hK') _ hn'

/-- All pages of the transaction fit if those split by count do. -/
theorem Ready.sizes (R : Ready c hc H d h F o w PE' PT' PK' PF' ix' N s') (L : LiveAt c hc H d hp h PE PT PK PF ix F s)
    (hbig : c.g.pageSize ≤ 65536) (hn : Counters w) (hm : Machine s')
    (hsz : ∀ x ∈ w.dirty, splitByCount x.2 = true → pageSizeOf kw x.2 ≤ c.g.pageSize) :
    ∀ x ∈ w.dirty, pageSizeOf kw x.2 ≤ c.g.pageSize ∧ NodeFits kw x.2 := by
  intro x hx
  have hprop := R.proper L.freeLe hbig hn hm x hx
  have hsize : pageSizeOf kw x.2 ≤ c.g.pageSize := by
    cases hb : splitByCount x.2 with
    | true => exact hsz x hx hb
    | false => exact hprop.2.1 hb
  exact ⟨hsize, hprop.1.fits hsize hbig⟩

/-- The header of the transaction can be written. -/
theorem Ready.headFits (R : Ready c hc H d h F o w PE' PT' PK' PF' ix' N s')
    (S : SafeAt c kw d hp h (PF + (PE + PT + PK))) (hn : Counters w) : NodeFits kw (.header (newHeader w h.schema)) := by
  have hroot : ∀ p, p = 0 ∨ p ∈ ids (PF' + (PE' + PT' + PK')) → p < 2 ^ 64 := by
    rintro p (rfl | hp)
    · omega
    · have := (R.own.lt hp).2; have := hn.page; omega
  obtain ⟨Old, hi⟩ := R.inv
  obtain ⟨es, hes, -⟩ := hi.rep
  obtain ⟨K, hK, he, hPE, -⟩ := R.trees.events
  obtain ⟨K2, hK2, he2, hPT, -⟩ := R.trees.tags
  refine ⟨hn.tsn, hn.page, ?_, ?_, ?_, hn.pos, ?_, ?_⟩
  · exact hroot _ (.inr (by simp only [ids_add, Multiset.mem_add]; exact .inl hes.root))
  · refine hroot _ (.inr ?_)
    obtain ⟨n, hn, -⟩ := hK.tr.root
    simp only [ids_add, Multiset.mem_add]
    exact .inr (.inl (.inl (by show w.eventsRoot ∈ _; rw [he, hPE]; exact mem_ids_of hn)))
  · refine hroot _ (.inr ?_)
    obtain ⟨n, hn, -⟩ := hK2.tr.root
    simp only [ids_add, Multiset.mem_add]
    exact .inr (.inl (.inr (by show w.tagsRoot ∈ _; rw [he2, hPT]; exact mem_ids_of hn)))
  · show h.schema < _
    rcases S.schema with ⟨h, -⟩ | ⟨h, -⟩ <;> rw [h] <;> decide
  · refine hroot _ ?_
    rcases R.trees.track with ⟨h, -⟩ | ⟨K3, hK3, h1, h2, -⟩
    · exact .inl h
    · right
      obtain ⟨n, hn, -⟩ := hK3.tr.root
      simp only [ids_add, Multiset.mem_add]
      exact .inr (.inr (by show w.trackRoot ∈ _; rw [h1, h2]; exact mem_ids_of hn))

/-- A commit in which every page fits and nothing goes wrong with the disk succeeds. -/
theorem Ready.commits (R : Ready c hc H d h F o w PE' PT' PK' PF' ix' N s') (L : LiveAt c hc H d hp h PE PT PK PF ix F s)
    (S : SafeAt c kw d hp h (PF + (PE + PT + PK))) (hbig : c.g.pageSize ≤ 65536) (hn : Counters w) (hm : Machine s')
    (hsz : ∀ x ∈ w.dirty, splitByCount x.2 = true → pageSizeOf kw x.2 ≤ c.g.pageSize) {io : IO} (hio : io.fault = none) :
    ∃ d', commitPages c io hp w d = (.ok (), d') := by
  have hown := R.own
  have hsize : ∀ x ∈ w.dirty, pageSizeOf kw x.2 ≤ c.g.pageSize := fun x hx => (R.sizes L hbig hn hm hsz x hx).1
  have hfit : ∀ x ∈ w.dirty, NodeFits kw x.2 := fun x hx => (R.sizes L hbig hn hm hsz x hx).2
  unfold commitPages
  rw [if_neg (by rw [R.width]; exact not_not.mpr hfit), hio]
  simp only
  obtain ⟨m, hwp⟩ : ∃ m, (writePages c.g w.kw c.zeroFill w.dirty d.file).1 = .ok m := by
    unfold writePages
    have hperm : (sortBy byId w.dirty).Perm w.dirty := sortBy_perm _ _
    have hflat := chunkBy_flatten adjacent (sortBy byId w.dirty)
    have h4 := (Mvcc.writeChunks_spec c.g w.kw c.zeroFill (chunkBy adjacent (sortBy byId w.dirty)) 0 d.file L.zeroed (chunkBy_chunk _)
      (by rw [hflat]; exact (hperm.map _).nodup_iff.mpr hown.dirtyNodup)).2.2.2
    rw [hflat] at h4
    refine ⟨_, (h4 fun p hp => ?_).1⟩
    have hp := hperm.mem_iff.mp hp
    rw [R.width]
    exact serialize_ok hc.kw (shapeOk_of_fits (hfit p hp)) (keysTooLong_of_fits (hfit p hp)) (by simpa using hsize p hp)
  obtain ⟨f, hf⟩ : ∃ f, writePages c.g w.kw c.zeroFill w.dirty d.file = (.ok m, f) := ⟨_, Prod.ext hwp rfl⟩
  rw [hf]
  simp only
  unfold commitHead
  have hcow : cowHeader hp w.roots = .ok ⟨if hp.id = 0 then 1 else 0, .header (newHeader w h.schema)⟩ := by
    unfold cowHeader
    rw [L.node]; rfl
  rw [hcow]
  simp only
  have hhead := R.headFits S hn
  rw [if_neg (by rw [R.width]; exact not_not.mpr hhead)]
  rw [hio]
  simp only
  have hz : File.Zeroed f := by
    have := (writePages_spec (by have := hc.ps; omega) hc.big hc.kw c.zeroFill hown.dirtyNodup hfit L.zeroed (g := c.g)).1.zeroed
    rw [← R.width, hf] at this
    exact this
  obtain ⟨b, hb⟩ := serialize_ok (kw := kw) hc.kw (buf := (List.range c.g.pageSize).map io.buf) (zero := c.zeroFill) (shapeOk_of_fits hhead)
    (keysTooLong_of_fits hhead) (by
      have := hc.ps
      simp only [pageSizeOf, nodeSize, pageHeaderSize, List.length_map, List.length_range]
      split <;> omega)
  obtain ⟨f', hw, -⟩ := writeOnePage_spec hc.kw (by simp) hc.big (id := if hp.id = 0 then 1 else 0)
    (f := (PDb.fsync c w.dirty.ids { d with file := f }).file) hz hhead hb
  rw [R.width]
  rw [hw]
  exact ⟨_, rfl⟩

end Commit

end Uma.Page
