import Mathlib.Data.Multiset.Bind
import Verif.Page.Crash

/-!
# Which pages are reachable, and what the free list says

Two plain listings of a database, made from the pages alone: all pages below the roots (`listing`), and all entries of the
free list (`freeListing`).  They serve as specification for C19 and C44 and are shown to agree with the pages and the
free-list content that the proofs about the trees keep track of.
-/

namespace Uma.Page
open Uma.Codec Uma.Mvcc Uma.Spec

/-- Page ids stored in a page as links; 0 stands for no page. -/
def kids : Node → List Nat
  | .header _ => []
  | .freeLeaf _ values => (values.map (·.root)).filter (· ≠ 0)
  | .freeInternal _ ks => ks
  | .eventLeaf _ values => (values.map fun v => match v with
      | .inline _ => 0
      | .overflow _ _ _ root _ _ _ => root).filter (· ≠ 0)
  | .eventInternal _ ks => ks
  | .eventOverflow next _ => [next].filter (· ≠ 0)
  | .tagsLeaf _ values => (values.map (·.root)).filter (· ≠ 0)
  | .tagsInternal _ ks => ks
  | .tagLeaf _ => []
  | .tagInternal _ ks => ks
  | .tsnLeaf _ => []
  | .tsnInternal _ ks => ks
  | .trackLeaf _ _ => []
  | .trackInternal _ ks => ks

/-- The pages at and below page `id`, at most `fuel` levels; a page reached twice is listed twice. -/
def listing (v : Nat → Option Node) : Nat → Nat → List (Nat × Node)
  | 0, _ => []
  | fuel + 1, id =>
    match v id with
    | none => []
    | some n => (id, n) :: (kids n).flatMap (listing v fuel)

/-- Page ids in the leaves of a per-transaction subtree. -/
def tsnIds (l : List (Nat × Node)) : List Nat := l.flatMap fun x => match x.2 with
  | .tsnLeaf ids => ids
  | _ => []

/-- Entries of the free list (page, transaction) in one page of its tree. -/
def freeIn (v : Nat → Option Node) (fuel : Nat) : Node → List (Nat × Nat)
  | .freeLeaf keys values => (keys.zip values).flatMap fun x =>
      (x.2.pageIds ++ if x.2.root = 0 then [] else tsnIds (listing v fuel x.2.root)).map (·, x.1)
  | _ => []

/-- All entries of the free list at `root`. -/
def freeListing (v : Nat → Option Node) (fuel root : Nat) : List (Nat × Nat) :=
  (listing v fuel root).flatMap fun x => freeIn v fuel x.2

/-- The pages below the roots of the header. -/
def reachable (v : Nat → Option Node) (h : Header) : List Nat :=
  ((h.freeRoot :: h.eventsRoot :: h.tagsRoot :: (if h.trackRoot = 0 then [] else [h.trackRoot])).flatMap
    (listing v h.nextPage)).map (·.1)

variable {v : Nat → Option Node}

/-- The listing at `id` consists of the pages `P`, each once. -/
def At (v : Nat → Option Node) (id : Nat) (P : Multiset (Nat × Node)) : Prop :=
  ∀ fuel, P.card ≤ fuel → ((listing v fuel id : List (Nat × Node)) : Multiset (Nat × Node)) = P

/-- All pages can be seen, and none has id 0. -/
def Sees0 (v : Nat → Option Node) (P : Multiset (Nat × Node)) : Prop := Sees v P ∧ ∀ p ∈ ids P, p ≠ 0

theorem Sees0.sub {P Q : Multiset (Nat × Node)} (h : Sees0 v P) (hq : Q ≤ P) : Sees0 v Q :=
  ⟨h.1.sub hq, fun p hp => h.2 p (Multiset.mem_of_le (Multiset.map_le_map hq) hp)⟩

theorem le_listSum {P : Multiset (Nat × Node)} {l : List (Multiset (Nat × Node))} (h : P ∈ l) : P ≤ l.sum := by
  obtain ⟨a, b, rfl⟩ := List.append_of_mem h
  simp only [List.sum_append, List.sum_cons]
  exact le_of_eq_add (a.sum + b.sum) (by abel)

theorem flatMap_at {fuel : Nat} : ∀ (Ls : List (Nat × Multiset (Nat × Node))), (∀ x ∈ Ls, At v x.1 x.2) →
    ((Ls.map (·.2)).sum : Multiset (Nat × Node)).card ≤ fuel →
    (((Ls.map (·.1)).flatMap (listing v fuel) : List (Nat × Node)) : Multiset (Nat × Node)) = (Ls.map (·.2)).sum
  | [], _, _ => rfl
  | x :: Ls, h, hf => by
    simp only [List.map_cons, List.sum_cons, Multiset.card_add, List.flatMap_cons] at hf ⊢
    rw [← Multiset.coe_add, h x (by simp) fuel (by omega), flatMap_at Ls (fun y hy => h y (by simp [hy])) (by omega)]

theorem At.page {id : Nat} {n : Node} (hv : v id = some n) (Ls : List (Nat × Multiset (Nat × Node))) (hk : kids n = Ls.map (·.1))
    (h : ∀ x ∈ Ls, At v x.1 x.2) : At v id ({(id, n)} + (Ls.map (·.2)).sum) := by
  intro fuel hf
  simp only [Multiset.card_add, Multiset.card_singleton] at hf
  obtain ⟨f, rfl⟩ : ∃ f, fuel = f + 1 := ⟨fuel - 1, by omega⟩
  unfold listing
  rw [hv]
  simp only [hk]
  rw [← Multiset.cons_coe, flatMap_at Ls h (by omega), Multiset.singleton_add]

theorem At.leaf {id : Nat} {n : Node} (hv : v id = some n) (hk : kids n = []) : At v id {(id, n)} := by
  simpa using At.page hv [] (by simpa using hk) (by simp)

/-- A tree is listed completely if its leaves are. -/
theorem tr_at {κ E : Type} {Y : Layout κ E} (hin : ∀ keys ks, kids (Y.ops.inner keys ks) = ks)
    (hleaf : ∀ k, Y.Leaf k → Sees0 v k.pg → At v k.id k.pg) {K : Kid κ E} (h : Tr Y K) : Sees0 v K.pg → At v K.id K.pg := by
  induction h with
  | leaf k hk => exact hleaf k hk
  | node id m R hm hR hfit ihm ihR =>
    intro hs
    have hpg : (nodeKid Y.ops id [] m R).pg = {(id, Y.ops.inner (keysOf [] R) (kidsOf [] m.id R))} +
        (((m.id, m.pg) :: R.map fun x => (x.2.id, x.2.pg)).map (·.2)).sum := by
      simp only [nodeKid, lpg_nil, zero_add, List.map_cons, List.sum_cons, List.map_map, rpg]; rfl
    rw [hpg] at hs ⊢
    refine At.page (id := id) (hs.1 _ _ (by simp)) _ (by rw [hin]; simp [kidsOf, Function.comp_def]) ?_
    intro x hx
    have hsub : x.2 ≤ (((m.id, m.pg) :: R.map fun x => (x.2.id, x.2.pg)).map (·.2)).sum :=
      le_listSum (List.mem_map_of_mem hx)
    have hsx : Sees0 v x.2 := hs.sub (hsub.trans (Multiset.le_add_left _ _))
    rcases List.mem_cons.mp hx with rfl | hx
    · exact ihm hsx
    · obtain ⟨y, hy, rfl⟩ := List.mem_map.mp hx
      exact ihR y hy hsx

/-- Entries of a leaf with links `root`, 0 standing for none. -/
theorem leaf_at {E : Type} {id : Nat} {n : Node} (root : E → Nat) (pg : E → Multiset (Nat × Node)) (es : List E)
    (hk : kids n = (es.map root).filter (· ≠ 0)) (hs : Sees0 v ({(id, n)} + (es.map pg).sum))
    (h0 : ∀ e ∈ es, root e = 0 → pg e = 0) (h : ∀ e ∈ es, root e ≠ 0 → Sees0 v (pg e) → At v (root e) (pg e)) :
    At v id ({(id, n)} + (es.map pg).sum) := by
  have hsum : ∀ es : List E, (∀ e ∈ es, root e = 0 → pg e = 0) →
      (es.map pg).sum = (((es.filter fun e => root e ≠ 0).map fun e => (root e, pg e)).map (·.2)).sum := by
    intro es
    induction es with
    | nil => intro _; rfl
    | cons e es ih =>
      intro h0
      have ih := ih fun e he => h0 e (by simp [he])
      by_cases hr : root e = 0
      · rw [List.filter_cons_of_neg (by simpa using hr), ← ih]; simp [h0 e (by simp) hr]
      · rw [List.filter_cons_of_pos (by simpa using hr)]; simp only [List.map_cons, List.sum_cons, ih]
  rw [hsum es h0]
  refine At.page (hs.1 _ _ (by simp)) _ ?_ ?_
  · rw [hk, List.map_map, List.filter_map]; rfl
  · intro x hx
    obtain ⟨e, he, rfl⟩ := List.mem_map.mp hx
    obtain ⟨he, hr⟩ := List.mem_filter.mp he
    refine h e he (by simpa using hr) (hs.sub (le_trans ?_ (Multiset.le_add_left _ _)))
    exact le_listSum (List.mem_map_of_mem he)

theorem chain_at {ps root : Nat} {Q : Multiset (Nat × Node)} {bs : Bytes} (h : Chain ps root Q bs) :
    (root = 0 → Q = 0) ∧ (root ≠ 0 → Sees0 v Q → At v root Q) := by
  induction h with
  | nil => exact ⟨fun _ => rfl, fun h => absurd rfl h⟩
  | @cons p next Q data bs hp hd hl _ _ ih =>
    refine ⟨fun h => absurd h hp, fun _ hs => ?_⟩
    by_cases hn : next = 0
    · rw [ih.1 hn, add_zero] at hs ⊢
      exact At.leaf (hs.1 _ _ (by simp)) (by simp [kids, hn])
    · have := At.page (v := v) (id := p) (n := .eventOverflow next data) (hs.1 _ _ (by simp)) [(next, Q)] (by simp [kids, hn])
        (by simpa using ih.2 hn (hs.sub (Multiset.le_add_left _ _)))
      simpa using this
  | @empty p hp hl =>
    exact ⟨fun h => absurd h hp, fun _ hs => At.leaf (hs.1 _ _ (by simp)) (by simp [kids])⟩

variable {kw ps : Nat} {hps : 1024 ≤ ps} {hkw : kw ≤ 16}

theorem events_at {K : Kid Nat (Nat × Record)} (h : Tr (evLayout kw ps hps) K) (hs : Sees0 v K.pg) : At v K.id K.pg := by
  refine tr_at (fun _ _ => rfl) ?_ h hs
  rintro k ⟨es, hk, hok, -⟩ hs
  have hpg : k.pg = {(k.id, evNode es)} + (es.map (·.pg)).sum := by rw [hk]; rfl
  rw [hpg] at hs ⊢
  have hroot : ∀ e ∈ es, ∃ bs, (∃ r, e.val = .inline r ∧ e.pg = 0) ∨
      ∃ a b cc root d m t, e.val = .overflow a b cc root d m t ∧ Chain ps root e.pg bs := by
    intro e he
    rcases (hok e he).stored with ⟨h1, h2, -⟩ | ⟨root, h1, h2, -⟩
    · exact ⟨[], .inl ⟨_, h1, h2⟩⟩
    · exact ⟨_, .inr ⟨_, _, _, root, _, _, _, h1, h2⟩⟩
  refine leaf_at (fun e : EvEnt => match e.val with
      | .inline _ => 0
      | .overflow _ _ _ root _ _ _ => root) (·.pg) es ?_ hs ?_ ?_
  · simp [kids, evNode, List.map_map, Function.comp_def]
  · intro e he h0
    obtain ⟨bs, ⟨r, h1, h2⟩ | ⟨a, b, cc, root, d, m, t, h1, h2⟩⟩ := hroot e he
    · exact h2
    · rw [h1] at h0; exact (chain_at (v := v) h2).1 h0
  · intro e he h0 hse
    obtain ⟨bs, ⟨r, h1, h2⟩ | ⟨a, b, cc, root, d, m, t, h1, h2⟩⟩ := hroot e he
    · rw [h1] at h0; exact absurd rfl h0
    · rw [h1] at h0 ⊢; exact (chain_at h2).2 h0 hse

theorem per_at {root : Nat} {P : Multiset (Nat × Node)} {l : List Nat} (h : PerRep kw ps hps root P l) (hs : Sees0 v P) : At v root P := by
  obtain ⟨K, hK, rfl, rfl, -⟩ := h
  refine tr_at (fun _ _ => rfl) ?_ hK.tr hs
  rintro k ⟨l, -, hk, -⟩ hs
  have hpg : k.pg = {(k.id, .tagLeaf l)} := by rw [hk]; rfl
  rw [hpg] at hs ⊢
  exact At.leaf (hs.1 _ _ (by simp)) rfl

theorem tsn_at {root : Nat} {P : Multiset (Nat × Node)} {l : List Nat} (h : TsnRep kw ps hps root P l) (hs : Sees0 v P) : At v root P := by
  obtain ⟨K, hK, rfl, rfl, -⟩ := h
  refine tr_at (fun _ _ => rfl) ?_ hK hs
  rintro k ⟨l, -, hk, -⟩ hs
  have hpg : k.pg = {(k.id, .tsnLeaf l)} := by rw [hk]; rfl
  rw [hpg] at hs ⊢
  exact At.leaf (hs.1 _ _ (by simp)) rfl

theorem track_at {K : Kid String (String × Nat)} (h : Tr (trLayout kw ps hps) K) (hs : Sees0 v K.pg) : At v K.id K.pg := by
  refine tr_at (fun _ _ => rfl) ?_ h hs
  rintro k ⟨es, hk, -⟩ hs
  have hpg : k.pg = {(k.id, trNode es)} := by rw [hk]; rfl
  rw [hpg] at hs ⊢
  exact At.leaf (hs.1 _ _ (by simp)) rfl

theorem tags_at {K : Kid Nat TagEnt} (h : Tr (tgLayout kw ps hps hkw) K) (hs : Sees0 v K.pg) : At v K.id K.pg := by
  refine tr_at (fun _ _ => rfl) ?_ h hs
  rintro k ⟨es, hk, hok, -⟩ hs
  have hpg : k.pg = {(k.id, tgNode es)} + (es.map (·.pg)).sum := by rw [hk]; rfl
  rw [hpg] at hs ⊢
  refine leaf_at (fun e : TagEnt => e.root) (·.pg) es ?_ hs ?_ ?_
  · simp [kids, tgNode, TagEnt.val, List.map_map, Function.comp_def]
  · intro e he hr
    rcases (hok e he).2 with ⟨-, -, h1, -⟩ | ⟨-, K', hK', h1, h2, -⟩
    · exact h1
    · obtain ⟨n, hn, -⟩ := hK'.tr.root
      have hle : e.pg ≤ {(k.id, tgNode es)} + (es.map (·.pg)).sum :=
        (le_listSum (List.mem_map_of_mem he)).trans (Multiset.le_add_left _ _)
      exact absurd (h1.symm.trans hr) ((hs.sub hle).2 K'.id (by rw [h2]; exact mem_ids_of hn))
  · intro e he hr hse
    rcases (hok e he).2 with ⟨h1, -⟩ | ⟨-, hper⟩
    · exact absurd h1 hr
    · exact per_at hper hse

theorem free_at {root : Nat} {P : Multiset (Nat × Node)} {es : List FreeEnt} (h : FreeTree kw ps hps root P es) (hs : Sees0 v P) :
    At v root P := by
  rcases h with ⟨K, hK, rfl, rfl, -, -⟩ | ⟨-, rfl⟩
  · refine tr_at (fun _ _ => rfl) ?_ hK hs
    rintro k ⟨es, hne, hk, hok, -⟩ hs
    have hpg : k.pg = {(k.id, frNode es)} + (es.map (·.pg)).sum := by rw [hk]; rfl
    rw [hpg] at hs ⊢
    refine leaf_at (fun e : FreeEnt => e.root) (·.pg) es ?_ hs ?_ ?_
    · simp [kids, frNode, FreeEnt.val, List.map_map, Function.comp_def]
    · intro e he hr
      rcases hok e he with ⟨-, -, h1, -⟩ | ⟨h1, -⟩
      · exact h1
      · exact absurd hr h1
    · intro e he hr hse
      rcases hok e he with ⟨h1, -⟩ | ⟨-, -, htsn⟩
      · exact absurd h1 hr
      · exact tsn_at htsn hse
  · exact At.leaf (hs.1 _ _ (by simp)) rfl

/-! ## Content of the free list -/

/-- What the leaves of a tree hold, if other pages hold nothing. -/
theorem tr_bind {κ E β : Type} {D : Multiset (Nat × Node) → Prop} (hD : ∀ {P Q}, D P → Q ≤ P → D Q) {Y : Layout κ E} {g : Node → List β} {f : E → List β} (hin : ∀ keys ks, g (Y.ops.inner keys ks) = [])
    (hleaf : ∀ k, Y.Leaf k → D k.pg → k.pg.bind (fun x => (g x.2 : Multiset β)) = ((ents k.sq).flatMap f : List β)) {K : Kid κ E} (h : Tr Y K) :
    D K.pg → K.pg.bind (fun x => (g x.2 : Multiset β)) = ((ents K.sq).flatMap f : List β) := by
  induction h with
  | leaf k hk => exact hleaf k hk
  | node id m R hm hR hfit ihm ihR =>
    intro hs
    simp only [nodeKid, lpg_nil, zero_add, lsq_nil, List.nil_append, ents_append, List.flatMap_append, Multiset.add_bind,
      Multiset.singleton_bind, hin] at hs ⊢
    have hR' : ∀ R : Rights κ E, (∀ x ∈ R, x.2.pg.bind (fun x => (g x.2 : Multiset β)) = ((ents x.2.sq).flatMap f : List β)) →
        (rpg R).bind (fun x => (g x.2 : Multiset β)) = ((ents (rsq R)).flatMap f : List β) := by
      intro R
      induction R with
      | nil => intro _; rfl
      | cons y R ih =>
        intro hy
        have e1 : rpg (y :: R) = y.2.pg + rpg R := by simp [rpg]
        have e2 : rsq (y :: R) = .sep y.1 :: (y.2.sq ++ rsq R) := by simp [rsq]
        rw [e1, e2, Multiset.add_bind, ih fun x hx => hy x (by simp [hx]), hy y (by simp)]
        simp
    rw [ihm (hD hs (le_of_eq_add ({(id, Y.ops.inner (keysOf [] R) (kidsOf [] m.id R))} + rpg R) (by abel))), hR' R ?_]
    · simp
    · intro x hx
      refine ihR x hx (hD hs ?_)
      have h1 : x.2.pg ≤ rpg R := le_listSum (List.mem_map_of_mem (f := fun x : κ × Kid κ E => x.2.pg) hx)
      exact h1.trans (le_of_eq_add ({(id, Y.ops.inner (keysOf [] R) (kidsOf [] m.id R))} + m.pg) (by abel))

theorem coe_flatMap {α β : Type} (l : List α) (g : α → List β) :
    ((l.flatMap g : List β) : Multiset β) = (l : Multiset α).bind fun x => (g x : Multiset β) := by
  induction l with
  | nil => rfl
  | cons a l ih => rw [List.flatMap_cons, ← Multiset.coe_add, ih, ← Multiset.cons_coe, Multiset.cons_bind]

theorem tsnIds_spec {root : Nat} {P : Multiset (Nat × Node)} {l : List Nat} (h : TsnRep kw ps hps root P l) (hs : Sees0 v P) {fuel : Nat}
    (hf : P.card ≤ fuel) : (tsnIds (listing v fuel root)).Perm l := by
  rw [← Multiset.coe_eq_coe]
  unfold tsnIds
  rw [coe_flatMap, tsn_at h hs fuel hf]
  obtain ⟨K, hK, rfl, rfl, rfl, -⟩ := h
  have := tr_bind (D := fun _ => True) (fun _ _ => trivial) (Y := tsnLayout kw ps hps) (g := fun n : Node => match n with
    | .tsnLeaf ids => ids
    | _ => []) (f := fun x : Nat => [x]) (fun _ _ => rfl) (by
      rintro k ⟨l, -, hk, -⟩ -
      rw [hk]; simp [tsnKid]) hK trivial
  simpa using this

/-- Other pages of the free list than its leaves hold no entries. -/
theorem tsn_bind {root : Nat} {P : Multiset (Nat × Node)} {l : List Nat} (h : TsnRep kw ps hps root P l) (fuel : Nat) :
    P.bind (fun x => (freeIn v fuel x.2 : Multiset (Nat × Nat))) = 0 := by
  obtain ⟨K, hK, rfl, rfl, -, -⟩ := h
  induction hK with
  | leaf k hk =>
    obtain ⟨l, -, hk, -⟩ := hk
    rw [hk]; simp [tsnKid, freeIn]
  | node id m R hm hR hfit ihm ihR =>
    have hR' : (rpg R).bind (fun x => (freeIn v fuel x.2 : Multiset (Nat × Nat))) = 0 := by
      clear hR hfit
      induction R with
      | nil => rfl
      | cons y R ih =>
        have e1 : rpg (y :: R) = y.2.pg + rpg R := by simp [rpg]
        rw [e1, Multiset.add_bind, ih fun x hx => ihR x (by simp [hx]), ihR y (by simp)]
        rfl
    simp only [nodeKid, lpg_nil, zero_add, Multiset.add_bind, Multiset.singleton_bind, ihm, hR']
    rfl

theorem freeListing_spec {root : Nat} {P : Multiset (Nat × Node)} {es : List FreeEnt} (h : FreeTree kw ps hps root P es)
    (hs : Sees0 v P) {fuel : Nat} (hf : P.card ≤ fuel) : (freeListing v fuel root : Multiset (Nat × Nat)) = freeSet es := by
  unfold freeListing
  rw [coe_flatMap, free_at h hs fuel hf]
  rcases h with ⟨K, hK, rfl, rfl, rfl, -⟩ | ⟨rfl, rfl⟩
  · refine tr_bind (D := fun P => Sees0 v P ∧ P.card ≤ fuel) (fun h hq => ⟨h.1.sub hq, (Multiset.card_le_card hq).trans h.2⟩)
      (Y := frLayout kw ps hps) (g := freeIn v fuel) (f := fun e : FreeEnt => e.pids.map fun p => (p, e.tsn)) (fun _ _ => rfl) ?_ hK
      ⟨hs, hf⟩
    rintro k ⟨es, -, hk, hok, -⟩ hsk
    have hpg : k.pg = {(k.id, frNode es)} + (es.map (·.pg)).sum := by rw [hk]; rfl
    have hsq : ents k.sq = es := by rw [hk]; simp [frKid]
    rw [hsq]
    rw [hpg] at hsk ⊢
    have hsub : ∀ e ∈ es, Sees0 v e.pg ∧ e.pg.card ≤ fuel := fun e he => by
      have hle : e.pg ≤ {(k.id, frNode es)} + (es.map (·.pg)).sum :=
        (le_listSum (List.mem_map_of_mem he)).trans (Multiset.le_add_left _ _)
      exact ⟨hsk.1.sub hle, (Multiset.card_le_card hle).trans hsk.2⟩
    rw [Multiset.add_bind, Multiset.singleton_bind]
    have h0 : ((es.map (·.pg)).sum : Multiset (Nat × Node)).bind (fun x => (freeIn v fuel x.2 : Multiset (Nat × Nat))) = 0 := by
      clear hpg hsq hk hsk hsub
      induction es with
      | nil => rfl
      | cons e es ih =>
        rw [List.map_cons, List.sum_cons, Multiset.add_bind, ih fun x hx => hok x (by simp [hx])]
        rcases hok e (by simp) with ⟨-, -, h1, -⟩ | ⟨-, -, h1⟩
        · rw [h1]; rfl
        · rw [tsn_bind h1]; rfl
    rw [h0, add_zero]
    simp only [frNode, freeIn]
    clear h0 hpg hsq hk hsk
    induction es with
    | nil => rfl
    | cons e es ih =>
      have ih := ih (fun x hx => hok x (by simp [hx])) fun x hx => hsub x (by simp [hx])
      simp only [List.map_cons, List.zip_cons_cons, List.flatMap_cons]
      rw [← Multiset.coe_add, ih, ← Multiset.coe_add]
      congr 1
      refine Multiset.coe_eq_coe.mpr (List.Perm.map _ ?_)
      rcases hok e (by simp) with ⟨h1, h2, -⟩ | ⟨h1, h2, h3⟩
      · simp [FreeEnt.val, h1, h2]
      · simp only [FreeEnt.val, h2, if_neg h1, List.nil_append]
        exact tsnIds_spec h3 (hsub e (by simp)).1 (hsub e (by simp)).2
  · simp [frNode, freeIn, freeSet]

end Uma.Page
