import Verif.Page.Order

/-!
# Reading trees: depth-first traversal with an explicit stack

`EventIterator::next_batch` (umadb-core/src/events_tree.rs 573-769) and `TagsTreeIterator::next_batch` (tags_tree.rs
773-884) keep a stack of (page, index of the next child or value; `None` on the first visit).  Pages come from the dirty
pages or from `read_page` (`with_page`, `get_page_cached`): here a function `v`.  The iterators' own page caches only
save repeated reads of a page that cannot change during the life of the snapshot; they are left out.
-/

namespace Uma.Page
open Uma.Codec

variable {κ E α : Type}

/-- Every page of `P` can be read. -/
def Sees (v : Nat → Option Node) (P : Multiset (Nat × Node)) : Prop := ∀ p n, (p, n) ∈ P → v p = some n

theorem Sees.sub {v : Nat → Option Node} {P Q : Multiset (Nat × Node)} (h : Sees v P) (hq : Q ≤ P) : Sees v Q :=
  fun p n hp => h p n (Multiset.mem_of_le hq hp)

structure Walk (κ α : Type) where
  un : Node → Option (List κ × List Nat)
  /-- The child taken on the first visit; `none`: the page is dropped. -/
  first : List κ → List Nat → Option Nat
  /-- What a leaf yields at an index, and the index of the next visit, if any. -/
  leaf : Node → Option Nat → Except Err (List α × Option Nat)
  back : Bool
  /-- What happens at an index without a child; `none`: the page is dropped. -/
  outOfBounds : Option Err

abbrev Stack := List (Nat × Option Nat)

/-- The page is visited again unless this was the last child. -/
def Walk.revisit (D : Walk κ α) (p i : Nat) (kids : List Nat) (st : Stack) : Stack :=
  if D.back then (if i > 0 then (p, some (i - 1)) :: st else st)
  else (if i + 1 < kids.length then (p, some (i + 1)) :: st else st)

/-- One turn of the loop, the page `p` and index `o` having been popped. -/
def Walk.step (D : Walk κ α) (v : Nat → Option Node) (p : Nat) (o : Option Nat) (st : Stack) :
    Except Err (List α × Stack) :=
  match v p with
  | none => .error (.pageNotFound p)
  | some n =>
    match D.un n with
    | none =>
      match D.leaf n o with
      | .error e => .error e
      | .ok (es, none) => .ok (es, st)
      | .ok (es, some i) => .ok (es, (p, some i) :: st)
    | some (keys, kids) =>
      match (match o with | some i => some i | none => D.first keys kids) with
      | none => .ok ([], st)
      | some i =>
        match kids[i]? with
        | none => (match D.outOfBounds with | some e => .error e | none => .ok ([], st))
        | some c => .ok ([], (c, none) :: D.revisit p i kids st)

/-- The traversal to its end: what it yields, and the error that ended it. -/
def Walk.run (D : Walk κ α) (v : Nat → Option Node) : Nat → Stack → List α × Option Err
  | _, [] => ([], none)
  | 0, _ :: _ => ([], some (.internal "out of fuel"))
  | fuel + 1, (p, o) :: st =>
    match D.step v p o st with
    | .error e => ([], some e)
    | .ok (es, st') => (es ++ (D.run v fuel st').1, (D.run v fuel st').2)

/-- The traversal from this stack ends after `n` turns, having yielded `l`. -/
inductive Emits (D : Walk κ α) (v : Nat → Option Node) : Nat → Stack → List α → Prop where
  | done : Emits D v 0 [] []
  | step {p o st es st' n l} : D.step v p o st = .ok (es, st') → Emits D v n st' l →
      Emits D v (n + 1) ((p, o) :: st) (es ++ l)

theorem Emits.run {D : Walk κ α} {v : Nat → Option Node} {n : Nat} {st : Stack} {l : List α} (h : Emits D v n st l) :
    ∀ fuel, n ≤ fuel → D.run v fuel st = (l, none) := by
  induction h with
  | done => intro fuel _; cases fuel <;> rfl
  | step hs _ ih =>
    intro fuel hf
    obtain ⟨fuel, rfl⟩ : ∃ f, fuel = f + 1 := ⟨fuel - 1, by omega⟩
    unfold Walk.run
    rw [hs]
    simp only [ih fuel (by omega)]

/-- Visiting page `id` yields `l` within `c` turns. -/
def Visit (D : Walk κ α) (v : Nat → Option Node) (id : Nat) (o : Option Nat) (l : List α) (c : Nat) : Prop :=
  ∀ n st l', Emits D v n st l' → ∃ n', n' ≤ n + c ∧ Emits D v n' ((id, o) :: st) (l ++ l')

theorem Visit.le {D : Walk κ α} {v : Nat → Option Node} {id : Nat} {o : Option Nat} {l : List α} {c c' : Nat}
    (h : Visit D v id o l c) (hc : c ≤ c') : Visit D v id o l c' := by
  intro n st l' he
  obtain ⟨n', hn, h'⟩ := h n st l' he
  exact ⟨n', by omega, h'⟩

theorem Visit.run {D : Walk κ α} {v : Nat → Option Node} {id : Nat} {o : Option Nat} {l : List α} {c : Nat}
    (h : Visit D v id o l c) {fuel : Nat} (hf : c ≤ fuel) : D.run v fuel [(id, o)] = (l, none) := by
  obtain ⟨n', hn, h'⟩ := h 0 [] [] .done
  have := h'.run fuel (by omega)
  simpa using this

/-! ## Internal pages -/

variable {D : Walk κ α} {v : Nat → Option Node} {n : Node} {keys : List κ}

theorem visit_fwd (hb : D.back = false) {id : Nat} (hv : v id = some n) (g : Kid κ E → List α) (cost : Kid κ E → Nat)
    (R : Rights κ E) : ∀ (L : Lefts κ E) (m : Kid κ E), D.un n = some (keys, kidsOf L m.id R) →
    (∀ c ∈ m :: R.map (·.2), Visit D v c.id none (g c) (cost c)) →
    Visit D v id (some L.length) ((m :: R.map (·.2)).flatMap g) ((m :: R.map (·.2)).map fun c => cost c + 1).sum := by
  induction R with
  | nil =>
    intro L m hu hc n0 st l' he
    obtain ⟨n1, h1, e1⟩ := hc m (by simp) n0 st l' he
    refine ⟨n1 + 1, by simp; omega, ?_⟩
    have hs : D.step v id (some L.length) st = .ok ([], (m.id, none) :: st) := by
      unfold Walk.step
      rw [hv]
      simp only [hu]
      have : (kidsOf L m.id ([] : Rights κ E))[L.length]? = some m.id := by simp [kidsOf]
      rw [this]
      simp [Walk.revisit, hb, kidsOf]
    have := Emits.step hs e1
    simpa using this
  | cons x R ih =>
    obtain ⟨k, c⟩ := x
    intro L m hu hc n0 st l' he
    have hk : kidsOf L m.id ((k, c) :: R) = kidsOf (L ++ [(m, k)]) c.id R := by simp [kidsOf]
    obtain ⟨n1, h1, e1⟩ := ih (L ++ [(m, k)]) c (hk ▸ hu) (fun c hc' => hc c (by simp at hc' ⊢; tauto)) n0 st l' he
    obtain ⟨n2, h2, e2⟩ := hc m (by simp) n1 _ _ e1
    refine ⟨n2 + 1, by simp at h1 ⊢; omega, ?_⟩
    have hs : D.step v id (some L.length) st = .ok ([], (m.id, none) :: (id, some (L ++ [(m, k)]).length) :: st) := by
      unfold Walk.step
      rw [hv]
      simp only [hu]
      have : (kidsOf L m.id ((k, c) :: R))[L.length]? = some m.id := by simp [kidsOf]
      rw [this]
      simp [Walk.revisit, hb, kidsOf]
    have := Emits.step hs e2
    simpa using this

theorem visit_back (hb : D.back = true) {id : Nat} (hv : v id = some n) (g : Kid κ E → List α) (cost : Kid κ E → Nat)
    (L : Lefts κ E) : ∀ (m : Kid κ E) (R : Rights κ E), D.un n = some (keys, kidsOf L m.id R) →
    (∀ c ∈ m :: (L.map (·.1)).reverse, Visit D v c.id none (g c) (cost c)) →
    Visit D v id (some L.length) ((m :: (L.map (·.1)).reverse).flatMap g)
      ((m :: (L.map (·.1)).reverse).map fun c => cost c + 1).sum := by
  induction L using List.reverseRecOn with
  | nil =>
    intro m R hu hc n0 st l' he
    obtain ⟨n1, h1, e1⟩ := hc m (by simp) n0 st l' he
    refine ⟨n1 + 1, by simp; omega, ?_⟩
    have hs : D.step v id (some 0) st = .ok ([], (m.id, none) :: st) := by
      unfold Walk.step
      rw [hv]
      simp only [hu]
      have : (kidsOf ([] : Lefts κ E) m.id R)[0]? = some m.id := by simp [kidsOf]
      rw [this]
      simp [Walk.revisit, hb]
    have := Emits.step hs e1
    simpa using this
  | append_singleton L x ih =>
    obtain ⟨c, k⟩ := x
    intro m R hu hc n0 st l' he
    have hk : kidsOf (L ++ [(c, k)]) m.id R = kidsOf L c.id ((k, m) :: R) := by simp [kidsOf]
    obtain ⟨n1, h1, e1⟩ := ih c ((k, m) :: R) (hk ▸ hu) (fun c hc' => hc c (by simp at hc' ⊢; tauto)) n0 st l' he
    obtain ⟨n2, h2, e2⟩ := hc m (by simp) n1 _ _ e1
    refine ⟨n2 + 1, by simp at h1 ⊢; omega, ?_⟩
    have hs : D.step v id (some (L ++ [(c, k)]).length) st = .ok ([], (m.id, none) :: (id, some L.length) :: st) := by
      unfold Walk.step
      rw [hv]
      simp only [hu]
      have : (kidsOf (L ++ [(c, k)]) m.id R)[(L ++ [(c, k)]).length]? = some m.id := by simp [kidsOf]
      rw [this]
      simp [Walk.revisit, hb]
    have := Emits.step hs e2
    simpa using this

/-- The first visit is the visit at the chosen index. -/
theorem visit_first {id i c : Nat} {kids : List Nat} {l : List α} (hv : v id = some n) (hu : D.un n = some (keys, kids))
    (hf : D.first keys kids = some i) (h : Visit D v id (some i) l c) : Visit D v id none l c := by
  intro n0 st l' he
  obtain ⟨n', hn, e⟩ := h n0 st l' he
  refine ⟨n', hn, ?_⟩
  have hs : D.step v id none st = D.step v id (some i) st := by
    unfold Walk.step
    rw [hv]
    simp only [hu, hf]
  generalize hl : l ++ l' = l'' at e
  cases e with
  | step h1 h2 => exact .step (hs.trans h1) h2

/-! ## Whole trees -/

/-- The children a visit goes through. -/
def visited (D : Walk κ α) (L : Lefts κ E) (m : Kid κ E) (R : Rights κ E) : List (Kid κ E) :=
  if D.back then m :: (L.map (·.1)).reverse else m :: R.map (·.2)

def walkCost (k : Kid κ E) : Nat := (ents k.sq).length + 2 * k.pg.card - 1

theorem lsq_count (L : Lefts κ E) : (L.map fun x => (ents x.1.sq).length).sum = (ents (lsq L)).length := by
  induction L with
  | nil => rfl
  | cons x L ih => simp [ih]

theorem rsq_count (R : Rights κ E) : (R.map fun x => (ents x.2.sq).length).sum = (ents (rsq R)).length := by
  induction R with
  | nil => rfl
  | cons x R ih => simp [ih]

theorem visited_cost (O : Ops κ) (id : Nat) {L : Lefts κ E} {m : Kid κ E} {R : Rights κ E}
    (hc : ∀ c, c ∈ visited D L m R → 0 < c.pg.card) :
    ((visited D L m R).map fun c => walkCost c + 1).sum ≤ walkCost (nodeKid O id L m R) := by
  have key : ∀ l : List (Kid κ E), (∀ c ∈ l, 0 < c.pg.card) →
      (l.map fun c => walkCost c + 1).sum = (l.map fun c => (ents c.sq).length).sum + 2 * (l.map fun c => c.pg.card).sum := by
    intro l hl
    induction l with
    | nil => rfl
    | cons c l ih =>
      have h1 := hl c (by simp)
      simp only [List.map_cons, List.sum_cons, ih (fun c hc => hl c (by simp [hc]))]
      unfold walkCost; omega
  rw [key _ hc]
  have hL : (lpg L).card = (L.map fun x => x.1.pg.card).sum := by
    induction L with
    | nil => rfl
    | cons x L ih => simp [lpg_cons, ih (by
        intro c hc'; apply hc; unfold visited at hc' ⊢; split at hc' <;> simp_all; tauto)]
  have hR : (rpg R).card = (R.map fun x => x.2.pg.card).sum := by
    induction R with
    | nil => rfl
    | cons x R ih => simp [rpg_cons, ih (by
        intro c hc'; apply hc; unfold visited at hc' ⊢; split at hc' <;> simp_all; tauto)]
  have h1 := lsq_count L
  have h2 := rsq_count R
  unfold walkCost nodeKid
  simp only [ents_append, List.length_append, Multiset.card_add, Multiset.card_singleton, hL, hR]
  unfold visited
  split
  · simp only [List.map_cons, List.sum_cons, List.map_reverse, List.sum_reverse, List.map_map, Function.comp_def]
    omega
  · simp only [List.map_cons, List.sum_cons, List.map_map, Function.comp_def]
    omega

variable {Y : Layout κ E}

/-- A traversal yields what `G` says, if `G` holds for leaves and carries over from the visited children to their
parent. -/
theorem walk_spec (hun : D.un = Y.ops.un) (G : Kid κ E → List α → Prop) (Pre : Kid κ E → Prop)
    (hleaf : ∀ k, Y.Leaf k → Pre k → Sees v k.pg → ∃ l, Visit D v k.id none l (walkCost k) ∧ G k l)
    (hfirst : ∀ keys kids, kids.length = keys.length + 1 → Y.fit keys →
      ∃ i, i ≤ keys.length ∧ D.first keys kids = some i)
    (hnode : ∀ id L m R, (∀ x ∈ L, Tr Y x.1) → Tr Y m → (∀ x ∈ R, Tr Y x.2) → Pre (nodeKid Y.ops id L m R) →
      Y.fit (keysOf L R) → D.first (keysOf L R) (kidsOf L m.id R) = some L.length →
      (∀ c ∈ visited D L m R, Pre c) ∧ ∀ g : Kid κ E → List α, (∀ c ∈ visited D L m R, G c (g c)) →
        G (nodeKid Y.ops id L m R) ((visited D L m R).flatMap g))
    {K : Kid κ E} (hK : Tr Y K) : Pre K → Sees v K.pg → ∃ l, Visit D v K.id none l (walkCost K) ∧ G K l := by
  classical
  induction hK with
  | leaf k hk => exact hleaf k hk
  | node id m R hm hR hf ihm ihR =>
    intro hpre hs
    obtain ⟨i, hi, hfi⟩ := hfirst (keysOf [] R) (kidsOf [] m.id R) (kidsOf_length _ _ _)
      (by simpa [keysOf] using hf)
    let Gd : Kid κ E → Prop := fun c => Tr Y c ∧ (Pre c → Sees v c.pg → ∃ l, Visit D v c.id none l (walkCost c) ∧ G c l)
    obtain ⟨L', m', R', e, hl, hk, hc, a, b, d⟩ := nodeKid_focus Y.ops id Gd i [] m R (by simp)
      ⟨hm, ihm⟩ (fun x hx => ⟨hR x hx, ihR x hx⟩) (by simpa [keysOf] using hi)
    have hl : L'.length = i := by simpa using hl
    rw [e] at hpre hs ⊢
    rw [← hk, ← hc, ← hl] at hfi
    obtain ⟨h1, h2⟩ := hnode id L' m' R' (fun x hx => (a x hx).1) b.1 (fun x hx => (d x hx).1) hpre
      (by rw [hk]; simpa [keysOf] using hf) hfi
    have hmem : ∀ c ∈ visited D L' m' R', Gd c ∧ c.pg ≤ (nodeKid Y.ops id L' m' R').pg := by
      intro c hc'
      have hm' : m'.pg ≤ (nodeKid Y.ops id L' m' R').pg := by
        simp only [nodeKid]
        exact (((Multiset.le_add_left _ _).trans (Multiset.le_add_right _ _))).trans (Multiset.le_add_left _ _)
      unfold visited at hc'
      split at hc'
      · rcases List.mem_cons.mp hc' with rfl | hc'
        · exact ⟨b, hm'⟩
        · obtain ⟨x, hx, rfl⟩ := List.mem_map.mp (List.mem_reverse.mp hc')
          refine ⟨a x hx, ?_⟩
          obtain ⟨s, t, rfl⟩ := List.append_of_mem hx
          simp only [nodeKid, lpg_append, lpg_cons]
          refine le_trans ?_ (Multiset.le_add_left _ _)
          refine le_trans ?_ (Multiset.le_add_right _ _)
          refine le_trans ?_ (Multiset.le_add_right _ _)
          refine le_trans ?_ (Multiset.le_add_left _ _)
          exact Multiset.le_add_right _ _
      · rcases List.mem_cons.mp hc' with rfl | hc'
        · exact ⟨b, hm'⟩
        · obtain ⟨x, hx, rfl⟩ := List.mem_map.mp hc'
          refine ⟨d x hx, ?_⟩
          obtain ⟨s, t, rfl⟩ := List.append_of_mem hx
          simp only [nodeKid, rpg_append, rpg_cons]
          refine le_trans ?_ (Multiset.le_add_left _ _)
          refine le_trans ?_ (Multiset.le_add_left _ _)
          refine le_trans ?_ (Multiset.le_add_left _ _)
          exact Multiset.le_add_right _ _
    let g : Kid κ E → List α := fun c =>
      if h : ∃ l, Visit D v c.id none l (walkCost c) ∧ G c l then h.choose else []
    have hg : ∀ c ∈ visited D L' m' R', Visit D v c.id none (g c) (walkCost c) ∧ G c (g c) := by
      intro c hc'
      obtain ⟨⟨_, h3⟩, h4⟩ := hmem c hc'
      have h5 := h3 (h1 c hc') (hs.sub h4)
      simp only [g, dif_pos h5]
      exact h5.choose_spec
    have hv : v id = some (Y.ops.inner (keysOf L' R') (kidsOf L' m'.id R')) := hs _ _ (by simp [nodeKid])
    have hu : D.un (Y.ops.inner (keysOf L' R') (kidsOf L' m'.id R')) = some (keysOf L' R', kidsOf L' m'.id R') := by
      rw [hun, Y.un_inner]
    refine ⟨(visited D L' m' R').flatMap g, visit_first hv hu hfi ?_, h2 g fun c hc' => (hg c hc').2⟩
    refine Visit.le ?_ (visited_cost Y.ops id fun c hc' => (hmem c hc').1.1.card_pos)
    by_cases hb : D.back
    · have := visit_back hb hv g walkCost L' m' R' hu (fun c hc' => (hg c (by simpa [visited, hb] using hc')).1)
      simpa [visited, hb, nodeKid] using this
    · have hb : D.back = false := by simpa using hb
      have := visit_fwd hb hv g walkCost R' L' m' hu (fun c hc' => (hg c (by simpa [visited, hb] using hc')).1)
      simpa [visited, hb, nodeKid] using this

end Uma.Page
