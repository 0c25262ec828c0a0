import Verif.Props.Page

/-!
# The trees stay balanced: C82

A leaf that is full is split on its own level and the root alone adds a level, so all leaves of a tree are equally far below
its root.  Every internal page has two children at least.  Hence a search reads at most one page more than the binary
logarithm of the number of pages of the file.
-/

namespace Uma.Props
open Uma.Spec Uma.Db Uma.Page Uma.Mvcc Uma.Codec

/-- The pages one level further down in the same tree. -/
def below : Node → List Nat
  | .eventInternal _ kids => kids
  | .tagsInternal _ kids => kids
  | .tagInternal _ kids => kids
  | .trackInternal _ kids => kids
  | _ => []

/-- From page `p` every way down takes exactly `n` steps, and there are two ways at least at each of them. -/
inductive Deep (v : Nat → Option Node) : Nat → Nat → Prop where
  | leaf {p : Nat} {nd : Node} : v p = some nd → below nd = [] → Deep v 0 p
  | inner {p n : Nat} {nd : Node} : v p = some nd → 2 ≤ (below nd).length → (∀ q ∈ below nd, Deep v n q) → Deep v (n + 1) p

/-- Page `q` is in the tree below `p`. -/
inductive Under (v : Nat → Option Node) : Nat → Nat → Prop where
  | here (p : Nat) : Under v p p
  | step {p q r : Nat} {nd : Node} : v p = some nd → q ∈ below nd → Under v q r → Under v p r

/-- A balanced tree below `root`, not higher than the logarithm of the number of pages. -/
def Shallow (v : Nat → Option Node) (pages root : Nat) : Prop := ∃ n, Deep v n root ∧ 2 ^ n ≤ pages

section
variable {κ E : Type} {Y : Layout κ E} {v : Nat → Option Node}

/-- What the argument needs to know about a tree. -/
structure PlainTree (Y : Layout κ E) : Prop where
  inner : ∀ keys kids, below (Y.ops.inner keys kids) = kids
  leaf : ∀ k, Y.Leaf k → ∃ nd Q, k.pg = {(k.id, nd)} + Q ∧ below nd = []
  dep : ∀ k, Y.Leaf k → k.dep = {0}
  fit : ∀ keys, Y.fit keys → 1 ≤ keys.length

theorem dep_pos (hY : PlainTree Y) {K : Kid κ E} (hK : Tr Y K) : ∃ x, x ∈ K.dep := by
  induction hK with
  | leaf k hk => exact ⟨0, by rw [hY.dep k hk]; simp⟩
  | node id m R hm hR hf ih _ =>
    obtain ⟨x, hx⟩ := ih
    exact ⟨x + 1, mem_deeper.mpr ⟨x, by simp [hx], rfl⟩⟩

theorem mem_rdep {R : Rights κ E} {x : κ × Kid κ E} (h : x ∈ R) {y : Nat} (hy : y ∈ x.2.dep) : y ∈ rdep R := by
  induction R with
  | nil => cases h
  | cons a R ih =>
    rw [rdep_cons, Multiset.mem_add]
    rcases List.mem_cons.mp h with rfl | h
    · exact .inl hy
    · exact .inr (ih h)

theorem le_rpg {R : Rights κ E} {x : κ × Kid κ E} (h : x ∈ R) : x.2.pg ≤ rpg R := by
  induction R with
  | nil => cases h
  | cons a R ih =>
    rw [rpg_cons]
    rcases List.mem_cons.mp h with rfl | h
    · exact Multiset.le_add_right _ _
    · exact (ih h).trans (Multiset.le_add_left _ _)

theorem deep_of (hY : PlainTree Y) {K : Kid κ E} (hK : Tr Y K) : ∀ n, (∀ x ∈ K.dep, x = n) → Sees v K.pg →
    Deep v n K.id ∧ 2 ^ n ≤ K.pg.card := by
  induction hK with
  | leaf k hk =>
    intro n hn hs
    have h0 : 0 = n := hn 0 (by rw [hY.dep k hk]; simp)
    subst h0
    obtain ⟨nd, Q, e, hb⟩ := hY.leaf k hk
    exact ⟨.leaf (hs _ _ (by rw [e]; simp)) hb, Tr.card_pos (.leaf k hk)⟩
  | node id m R hm hR hf ihm ihR =>
    intro n hn hs
    obtain ⟨x0, hx0⟩ := dep_pos hY hm
    have hup : ∀ x, x ∈ m.dep + rdep R → x + 1 = n := fun x hx => hn _ (mem_deeper.mpr ⟨x, by simpa using hx, rfl⟩)
    have hx0n := hup x0 (Multiset.mem_add.mpr (.inl hx0))
    obtain ⟨n, rfl⟩ : ∃ j, n = j + 1 := ⟨x0, hx0n.symm⟩
    have hm' := ihm n (fun x hx => by have := hup x (Multiset.mem_add.mpr (.inl hx)); omega)
      (hs.sub (le_of_eq_add ({(id, Y.ops.inner (keysOf [] R) (kidsOf [] m.id R))} + rpg R) (by simp only [nodeKid, lpg_nil]; abel)))
    have hsR : Sees v (rpg R) := hs.sub
      (le_of_eq_add ({(id, Y.ops.inner (keysOf [] R) (kidsOf [] m.id R))} + m.pg) (by simp only [nodeKid, lpg_nil]; abel))
    have hR' : ∀ x ∈ R, Deep v n x.2.id ∧ 2 ^ n ≤ x.2.pg.card := fun x hx => ihR x hx n
      (fun y hy => by have := hup y (Multiset.mem_add.mpr (.inr (mem_rdep hx hy))); omega) (hsR.sub (le_rpg hx))
    have hlen : 1 ≤ R.length := by simpa using hY.fit _ hf
    have hv : v id = some (Y.ops.inner (keysOf [] R) (kidsOf [] m.id R)) := hs _ _ (by simp [nodeKid])
    refine ⟨.inner hv ?_ ?_, ?_⟩
    · rw [hY.inner]; simp [kidsOf]; omega
    · rw [hY.inner]
      intro q hq
      simp only [kidsOf, List.map_nil, List.nil_append, List.mem_cons, List.mem_map] at hq
      rcases hq with rfl | ⟨x, hx, rfl⟩
      · exact hm'.1
      · exact (hR' x hx).1
    · cases R with
      | nil => simp at hlen
      | cons x R =>
        have h1 := (hR' x (by simp)).2
        have h2 := hm'.2
        simp only [nodeKid, lpg_nil, zero_add, rpg_cons, Multiset.card_add, Multiset.card_singleton]
        rw [pow_succ]
        omega

theorem shallow_of (hY : PlainTree Y) {K : Kid κ E} (hK : Bt Y K) (hs : Sees v K.pg) {pages : Nat} (hc : K.pg.card ≤ pages) :
    Shallow v pages K.id := by
  obtain ⟨n, hn⟩ := hK.even
  obtain ⟨h1, h2⟩ := deep_of hY hK.tr n hn hs
  exact ⟨n, h1, h2.trans hc⟩

/-- The pages met on the way down are the internal pages and the leaves of the tree. -/
theorem under_tr (hY : PlainTree Y) {K : Kid κ E} (hK : Tr Y K) (hs : Sees v K.pg) {q : Nat} (h : Under v K.id q) :
    (∃ k, Y.Leaf k ∧ k.id = q ∧ k.pg ≤ K.pg) ∨ ∃ keys kids, v q = some (Y.ops.inner keys kids) := by
  induction hK with
  | leaf k hk =>
    obtain ⟨nd, Q, e, hb⟩ := hY.leaf k hk
    cases h with
    | here => exact .inl ⟨k, hk, rfl, le_refl _⟩
    | step hv hq _ =>
      rw [hs k.id nd (by rw [e]; simp)] at hv
      cases hv
      rw [hb] at hq
      cases hq
  | node id m R hm hR hf ihm ihR =>
    have hv' : v id = some (Y.ops.inner (keysOf [] R) (kidsOf [] m.id R)) := hs _ _ (by simp [nodeKid])
    have hlm : m.pg ≤ (nodeKid Y.ops id [] m R).pg :=
      le_of_eq_add ({(id, Y.ops.inner (keysOf [] R) (kidsOf [] m.id R))} + rpg R) (by simp only [nodeKid, lpg_nil]; abel)
    have hlR : rpg R ≤ (nodeKid Y.ops id [] m R).pg :=
      le_of_eq_add ({(id, Y.ops.inner (keysOf [] R) (kidsOf [] m.id R))} + m.pg) (by simp only [nodeKid, lpg_nil]; abel)
    cases h with
    | here => exact .inr ⟨_, _, hv'⟩
    | step hv hq hu =>
      change v id = _ at hv
      rw [hv'] at hv
      cases hv
      rw [hY.inner] at hq
      simp only [kidsOf, List.map_nil, List.nil_append, List.mem_cons, List.mem_map] at hq
      rcases hq with rfl | ⟨x, hx, rfl⟩
      · rcases ihm (hs.sub hlm) hu with ⟨k, h1, h2, h3⟩ | h
        · exact .inl ⟨k, h1, h2, h3.trans hlm⟩
        · exact .inr h
      · have hl := (le_rpg hx).trans hlR
        rcases ihR x hx (hs.sub hl) hu with ⟨k, h1, h2, h3⟩ | h
        · exact .inl ⟨k, h1, h2, h3.trans hl⟩
        · exact .inr h

/-- Going down a tree of height `n` reads `n + 1` pages: leave to read more makes no difference. -/
theorem findLeaf_height {O : Ops κ} (hO : ∀ nd keys kids, O.un nd = some (keys, kids) → below nd = kids)
    (pick : List κ → List Nat → Nat) {n p : Nat} (h : Deep v n p) : ∀ fuel, n + 1 ≤ fuel →
    findLeaf O pick v fuel p = findLeaf O pick v (n + 1) p := by
  induction h with
  | @leaf p nd hv hb =>
    intro fuel hf
    obtain ⟨f, rfl⟩ : ∃ f, fuel = f + 1 := ⟨fuel - 1, by omega⟩
    simp only [findLeaf, hv]
    split
    · rfl
    · split
      · rfl
      · next keys kids hun =>
        have := hO _ _ _ hun
        rw [hb] at this
        subst this
        rfl
  | @inner p n nd hv hl _ ih =>
    intro fuel hf
    obtain ⟨f, rfl⟩ : ∃ f, fuel = f + 1 := ⟨fuel - 1, by omega⟩
    rw [findLeaf, findLeaf]
    simp only [hv]
    split
    · rfl
    · split
      · rfl
      · next keys kids hun =>
        split
        · rfl
        · next c hc =>
          exact ih c (by rw [hO _ _ _ hun]; exact List.mem_of_getElem? hc) f (by omega)

end

theorem plain_events {kw ps : Nat} {hps : 1024 ≤ ps} : PlainTree (evLayout kw ps hps) where
  inner _ _ := rfl
  leaf k := by rintro ⟨es, hk, -⟩; exact ⟨evNode es, epg es, by rw [hk]; rfl, rfl⟩
  dep k := by rintro ⟨es, hk, -⟩; rw [hk]; rfl
  fit _ h := h.1

theorem plain_tags {kw ps : Nat} {hps : 1024 ≤ ps} {hkw : kw ≤ 16} : PlainTree (tgLayout kw ps hps hkw) where
  inner _ _ := rfl
  leaf k := by rintro ⟨es, hk, -⟩; exact ⟨tgNode es, tgPg es, by rw [hk]; rfl, rfl⟩
  dep k := by rintro ⟨es, hk, -⟩; rw [hk]; rfl
  fit _ h := h.1

theorem plain_per {kw ps : Nat} {hps : 1024 ≤ ps} : PlainTree (perLayout kw ps hps) where
  inner _ _ := rfl
  leaf k := by rintro ⟨l, -, hk, -⟩; exact ⟨.tagLeaf l, 0, by rw [hk]; rfl, rfl⟩
  dep k := by rintro ⟨l, -, hk, -⟩; rw [hk]; rfl
  fit _ h := h.1

theorem plain_track {kw ps : Nat} {hps : 1024 ≤ ps} : PlainTree (trLayout kw ps hps) where
  inner _ _ := rfl
  leaf k := by rintro ⟨es, hk, -⟩; exact ⟨trNode es, 0, by rw [hk]; rfl, rfl⟩
  dep k := by rintro ⟨es, hk, -⟩; rw [hk]; rfl
  fit _ h := h.1

variable {c : Conf} {kw : Nat}

/-- C82: in every state of the database the tree of events, the tree of tags, the tree of tracked sources and each tree of
the positions of one tag is balanced, and its height is at most the binary logarithm of the number of pages of the file. -/
theorem C82_balanced {env : Env} (hc : ConfOk c kw) (hH : ∀ t, Codec.NormalizedTo kw (env.H t)) {d : PDb} {s : Spec.Db}
    (hd : (pageLawful hc hH).RepD d s) : ∃ h, d.header = .ok h ∧
      Shallow (d.base c) h.nextPage h.eventsRoot ∧ Shallow (d.base c) h.nextPage h.tagsRoot ∧
      (h.trackRoot ≠ 0 → Shallow (d.base c) h.nextPage h.trackRoot) ∧
      ∀ q keys vals, Under (d.base c) h.tagsRoot q → d.base c q = some (.tagsLeaf keys vals) →
        ∀ x ∈ vals, x.root ≠ 0 → Shallow (d.base c) h.nextPage x.root := by
  obtain ⟨hp, h, PE, PT, PK, PF, ix, F, L, S⟩ := hd
  have hcard := L.card
  refine ⟨h, L.header_eq, ?_, ?_, ?_, ?_⟩
  · obtain ⟨K, hK, h1, h2, -⟩ := L.trees.events
    rw [h2] at hcard
    rw [h1]
    exact shallow_of plain_events hK (L.sees.sub (le_of_eq_add (PF + (PT + PK)) (by rw [h2]; abel))) (by omega)
  · obtain ⟨K, hK, h1, h2, -⟩ := L.trees.tags
    rw [h2] at hcard
    rw [h1]
    exact shallow_of plain_tags hK (L.sees.sub (le_of_eq_add (PF + (PE + PK)) (by rw [h2]; abel))) (by omega)
  · intro h0
    rcases L.trees.track with ⟨h1, -⟩ | ⟨K, hK, h1, h2, -⟩
    · exact absurd h1 h0
    · rw [h2] at hcard
      rw [h1]
      exact shallow_of plain_track hK (L.sees.sub (le_of_eq_add (PF + (PE + PT)) (by rw [h2]; abel))) (by omega)
  · intro q keys vals hu hq x hx hr
    obtain ⟨K, hK, h1, h2, -⟩ := L.trees.tags
    have hs : Sees (d.base c) K.pg := L.sees.sub (le_of_eq_add (PF + (PE + PK)) (by rw [h2]; abel))
    rw [h1] at hu
    rw [h2] at hcard
    rcases under_tr plain_tags hK.tr hs hu with ⟨k, ⟨es, hk, hok, -⟩, rfl, hle⟩ | ⟨ks, kids, hi⟩
    · have hpg : k.pg = {(k.id, tgNode es)} + tgPg es := by rw [hk]; rfl
      have := (hs.sub hle) k.id (tgNode es) (by rw [hpg]; simp)
      rw [hq] at this
      simp only [tgNode, Option.some.injEq, Node.tagsLeaf.injEq] at this
      rw [this.2] at hx
      obtain ⟨e, he, rfl⟩ := List.mem_map.mp hx
      rcases (hok e he).2 with ⟨h3, -⟩ | ⟨-, K', hK', h3, h4, -⟩
      · exact absurd h3 hr
      · have hle' : K'.pg ≤ K.pg := by
          rw [← h4]
          exact ((le_listSum (List.mem_map_of_mem he)).trans ((Multiset.le_add_left _ _).trans (le_of_eq hpg.symm))).trans hle
        have hc' := Multiset.card_le_card hle'
        show Shallow _ _ e.root
        rw [h3]
        exact shallow_of plain_per hK' (hs.sub hle') (by omega)
    · rw [hi] at hq
      cases hq

theorem shallow_log {v : Nat → Option Node} {pages root : Nat} (h : Shallow v pages root) :
    ∃ n, Deep v n root ∧ n ≤ Nat.log2 pages := by
  obtain ⟨n, h1, h2⟩ := h
  have : 0 < 2 ^ n := Nat.two_pow_pos n
  exact ⟨n, h1, (Nat.le_log2 (by omega)).mpr h2⟩

theorem ev_un : ∀ nd keys kids, evOps.un nd = some (keys, kids) → below nd = kids := by
  intro nd keys kids h
  cases nd <;> simp [evOps] at h
  simp [below, h.2]

theorem tags_un : ∀ nd keys kids, tagsOps.un nd = some (keys, kids) → below nd = kids := by
  intro nd keys kids h
  cases nd <;> simp [tagsOps] at h
  simp [below, h.2]

theorem track_un : ∀ nd keys kids, trOps.un nd = some (keys, kids) → below nd = kids := by
  intro nd keys kids h
  cases nd <;> simp [trOps] at h
  simp [below, h.2]

/-- C82: looking up a recorded position or a tracked source reads at most `log2 pages + 1` pages of its tree, and so does
the search for the leaf of a tag. -/
theorem C82_lookup {env : Env} (hc : ConfOk c kw) (hH : ∀ t, Codec.NormalizedTo kw (env.H t)) {d : PDb} {s : Spec.Db}
    (hd : (pageLawful hc hH).RepD d s) : ∃ h, d.header = .ok h ∧
      (∀ pos r, 1 ≤ pos → s.log[pos - 1]? = some r →
        evLookup (d.base c) (Nat.log2 h.nextPage + 1) h.eventsRoot pos = .ok r) ∧
      (∀ src, trackLookup (d.base c) (Nat.log2 h.nextPage + 1) h.trackRoot src = .ok (s.track src)) ∧
      ∀ tag, ∃ nd, findLeaf tagsOps (fun keys _ => ub keys tag) (d.base c) (Nat.log2 h.nextPage + 1) h.tagsRoot = .ok nd ∧
        tagsOps.isLeaf nd = true := by
  obtain ⟨h, hh, hE, hT, hK0, -⟩ := C82_balanced hc hH hd
  obtain ⟨hp, h', PE, PT, PK, PF, ix, F, L, S⟩ := hd
  have := L.header_eq
  rw [hh] at this
  cases this
  have hcard := L.card
  refine ⟨h, hh, fun pos r h1 h2 => ?_, fun src => ?_, fun tag => ?_⟩
  · obtain ⟨n, hn, hl⟩ := shallow_log hE
    have hbig : evLookup (d.base c) (h.nextPage + (n + 1)) h.eventsRoot pos = .ok r := by
      obtain ⟨K, hK, e1, e2, hq⟩ := L.trees.events
      rw [e2] at hcard
      rw [e1]
      exact evLookup_spec hK.tr hq.strict (L.sees.sub (le_of_eq_add (PF + (PT + PK)) (by rw [e2]; abel))) (by omega)
        (by rw [hq.ents]; exact mem_numberFrom.mpr ⟨h1, h2⟩)
    unfold evLookup at hbig ⊢
    rw [findLeaf_height ev_un _ hn _ (by omega)] at hbig
    rw [findLeaf_height ev_un _ hn _ (by omega)]
    exact hbig
  · have hbig := trackLookup_spec L.trees.track (L.sees.sub (le_of_eq_add (PF + (PE + PT)) (by abel)))
      (fun p hp => by
        have := L.body (p := p) (by simp only [ids_add, Multiset.mem_add]; exact .inr (.inr hp))
        omega) (fuel := h.nextPage + (Nat.log2 h.nextPage + 1)) (by omega) src
    unfold trackLookup at hbig ⊢
    by_cases h0 : h.trackRoot = 0
    · rw [if_pos h0] at hbig ⊢
      exact hbig
    · rw [if_neg h0] at hbig ⊢
      obtain ⟨n, hn, hl⟩ := shallow_log (hK0 h0)
      rw [findLeaf_height track_un _ hn _ (by omega)] at hbig
      rw [findLeaf_height track_un _ hn _ (by omega)]
      exact hbig
  · obtain ⟨n, hn, hl⟩ := shallow_log hT
    obtain ⟨K, hK, e1, e2, -⟩ := L.trees.tags
    rw [e2] at hcard
    obtain ⟨fs, k, nd, hF, h1, h2, h3, h4⟩ := findLeaf_spec (Y := tgLayout kw c.g.pageSize hc.ps hc.kw) (v := d.base c)
      (pick := fun keys _ => ub keys tag) (fun keys kids _ => ub_le keys tag) hK.tr (h.nextPage + (n + 1)) (by omega)
      (L.sees.sub (le_of_eq_add (PF + (PE + PK)) (by rw [e2]; abel)))
    obtain ⟨es, hk, -⟩ := hF.leaf
    have hv := L.sees k.id (tgNode es) (by
      have : (k.id, tgNode es) ∈ K.pg := Multiset.mem_of_le h4 (by rw [hk]; simp [tgKid])
      rw [← e2] at this
      simp only [Multiset.mem_add]
      exact .inr (.inl (.inr this)))
    rw [h3] at hv
    cases hv
    refine ⟨tgNode es, ?_, rfl⟩
    rw [findLeaf_height tags_un _ hn _ (by omega), ← findLeaf_height tags_un _ hn (h.nextPage + (n + 1)) (by omega), e1]
    exact h1

/-- C82: the same after any appends and crashes. -/
theorem C82_later {env : Env} (he : EnvOk env) (hc : ConfOk c kw) (hH : ∀ t, Codec.NormalizedTo kw (env.H t)) {d d' : PDb}
    {s : Spec.Db} (hd : (pageLawful hc hH).RepD d s) (hh : Happens c env d d') : ∃ h, d'.header = .ok h ∧
      Shallow (d'.base c) h.nextPage h.eventsRoot ∧ Shallow (d'.base c) h.nextPage h.tagsRoot ∧
      (h.trackRoot ≠ 0 → Shallow (d'.base c) h.nextPage h.trackRoot) := by
  obtain ⟨s', hd', -⟩ := happens_grown he hc hH hh hd
  obtain ⟨h, h1, h2, h3, h4, -⟩ := C82_balanced hc hH hd'
  exact ⟨h, h1, h2, h3, h4⟩

/-- An internal page is not split unless there are children enough for both halves. -/
theorem splitNode_ok {κ : Type} {O : Ops κ} {keys : List κ} {kids : List Nat} {r : Option (κ × List κ × List Nat) × Node}
    (h : splitNode O keys kids = .ok r) : O.minKeys ≤ keys.length ∧ O.minKeys < kids.length := by
  unfold splitNode at h
  split at h
  · cases h
  · omega

/-- After a child was replaced without a panic the new one is among the children. -/
theorem tsnSet_linked {idx old new : Nat} {n n' : Node} {u : Unit} (h : tsnSet idx old new n = .ok (u, n')) :
    ∃ keys kids, n' = .tsnInternal keys kids ∧ kids[idx]? = some new := by
  unfold tsnSet at h
  split at h
  · split at h
    · cases h
      exact ⟨_, _, rfl, by simp [*]⟩
    · cases h
  · cases h

/-! ## Examples -/

section Examples

/-- A tree with four leaves in two branches. -/
def exEven : Nat → Option Node
  | 10 => some (.eventInternal [5] [11, 12])
  | 11 => some (.eventInternal [3] [13, 14])
  | 12 => some (.eventInternal [7] [15, 16])
  | 13 => some (.eventLeaf [1, 2] [])
  | 14 => some (.eventLeaf [3, 4] [])
  | 15 => some (.eventLeaf [5, 6] [])
  | 16 => some (.eventLeaf [7] [])
  | _ => none

theorem exEven_leaf (p : Nat) (hp : p = 13 ∨ p = 14 ∨ p = 15 ∨ p = 16) : Deep exEven 0 p := by
  rcases hp with rfl | rfl | rfl | rfl <;> exact .leaf rfl rfl

example : Deep exEven 2 10 ∧ Shallow exEven 17 10 := by
  have h : Deep exEven 2 10 := .inner rfl (by decide) fun q hq => by
    simp only [below, List.mem_cons, List.not_mem_nil, or_false] at hq
    rcases hq with rfl | rfl
    · refine .inner rfl (by decide) fun q hq => exEven_leaf q ?_
      simp only [below, List.mem_cons, List.not_mem_nil, or_false] at hq
      omega
    · refine .inner rfl (by decide) fun q hq => exEven_leaf q ?_
      simp only [below, List.mem_cons, List.not_mem_nil, or_false] at hq
      omega
  exact ⟨h, 2, h, by decide⟩

/-- With a leaf in place of page 11 there is no height. -/
example : ∀ n, ¬ Deep (fun p => if p = 11 then some (.eventLeaf [1, 2] []) else exEven p) n 10 := by
  intro n h
  cases h with
  | leaf hv hb => simp [exEven] at hv; subst hv; cases hb
  | inner hv _ hq =>
    simp [exEven] at hv
    subst hv
    have h1 := hq 11 (by simp [below])
    have h2 := hq 12 (by simp [below])
    cases h1 with
    | leaf _ _ => cases h2 with
      | leaf hv hb => simp [exEven] at hv; subst hv; cases hb
    | inner hv hl _ => simp at hv; subst hv; simp [below] at hl

/-- The search in that tree reads three pages and no more. -/
example : findLeaf evOps (fun keys _ => ub keys 6) exEven 3 10 = .ok (.eventLeaf [5, 6] []) ∧
    findLeaf evOps (fun keys _ => ub keys 6) exEven 2 10 = .error (.internal "out of fuel") := by decide +kernel

/-- Two recorded events with a tracked source. -/
example : ∃ (d' : PDb) (h : Header), d'.header = .ok h ∧ Shallow (d'.base exConf) h.nextPage h.eventsRoot ∧
    evLookup (d'.base exConf) (Nat.log2 h.nextPage + 1) h.eventsRoot 2 = .ok ⟨exEv 2, some ⟨"up", 9⟩⟩ ∧
    trackLookup (d'.base exConf) (Nat.log2 h.nextPage + 1) h.trackRoot "up" = .ok (some 9) := by
  obtain ⟨d, d', -, -, -, hd'⟩ := exStored
  obtain ⟨h, h1, h2, -⟩ := C82_balanced (env := exConstEnv) exConf_ok exConstEnv_width hd'
  obtain ⟨h', h3, h4, h5, -⟩ := C82_lookup (env := exConstEnv) exConf_ok exConstEnv_width hd'
  rw [h1] at h3
  cases h3
  exact ⟨d', h, h1, h2, h4 2 _ (by omega) rfl, (h5 "up").trans (by decide)⟩

/-- The free list is left out of C82: there an internal page with one child left gives way to that child (mvcc.rs 2375-2385),
wherever it is.  All four leaves of this one are two pages below the root. -/
def freeTall : Writer :=
  { freeSample with
    tsn := 9
    freeRoot := 2
    base := fun p => [(2, Node.freeInternal [5] [3, 4]), (3, .freeInternal [4] [6, 7]), (4, .freeInternal [6] [8, 9]),
      (6, .freeLeaf [3] [⟨[10], 0⟩]), (7, .freeLeaf [4] [⟨[11], 0⟩]), (8, .freeLeaf [5] [⟨[12], 0⟩]), (9, .freeLeaf [6] [⟨[13], 0⟩])].lookup p
    deser := fun _ => none }

/-- When the last page id is taken from leaf 6, leaf 7 moves up; leaves 8 and 9 stay where they are. -/
example : ((freeRemove 3 10) freeTall).1 = .ok () ∧ ((freeRemove 3 10) freeTall).2.dirty.lookup ((freeRemove 3 10) freeTall).2.freeRoot =
    some (.freeInternal [5] [7, 4]) := by decide +kernel

end Examples

end Uma.Props
