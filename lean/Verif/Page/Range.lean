import Verif.Page.Walk
import Verif.Spec.Log

/-!
# Range scans over trees ordered by position

The iterators over the events tree and over the positions of a tag start at the child found by binary search for
`start` and go on to the end, or back to the beginning.
-/

namespace Uma.Page
open Uma.Codec Uma.Spec

variable {E : Type} {f : E → Nat} {start : Option Nat} {back : Bool}

/-- The child taken on the first visit: events_tree.rs 619-638, tags_tree.rs 791-810. -/
def firstIdx (bs : List Nat → Nat → Nat) (start : Option Nat) (back : Bool) (keys kids : List Nat) : Nat :=
  match start with
  | some s => bs keys s
  | none => if back then kids.length - 1 else 0

/-- What a traversal relies on.  `N`: when going backwards, the first entry must not be above `start`. -/
structure RangePre (f : E → Nat) (start : Option Nat) (back : Bool) (N : Prop) (k : Kid Nat E) : Prop where
  weak : Weak f k.sq
  sep : SepEnt f k.sq
  first : N → back = true → ∀ s ∈ start, ∀ e b, k.sq = .ent e :: b → f e ≤ s

/-- What it yields: a selection of the entries, in order, with all keys in range and no others. -/
structure RangeOut (f : E → Nat) (start : Option Nat) (back : Bool) (k : Kid Nat E) (l : List E) : Prop where
  sub : l.Sublist (if back then (ents k.sq).reverse else ents k.sq)
  sound : ∀ e ∈ l, InRange start back (f e)
  complete : ∀ e ∈ ents k.sq, InRange start back (f e) → ∃ e' ∈ l, f e' = f e

theorem mem_ents {κ : Type} {sq : List (Item κ E)} {e : E} : e ∈ ents sq ↔ .ent e ∈ sq := by
  unfold ents
  rw [List.mem_filterMap]
  constructor
  · rintro ⟨i, hi, h⟩
    cases i with
    | ent x => cases h; exact hi
    | sep k => cases h
  · intro h; exact ⟨_, h, rfl⟩

theorem SepEnt.mid {a m b : List (Item Nat E)} (h : SepEnt f (a ++ m ++ b)) (hb : ∀ e b', b ≠ .ent e :: b') : SepEnt f m := by
  intro x k y hm
  subst hm
  obtain ⟨e, b', he, hk⟩ := h (a ++ x) k (y ++ b) (by simp)
  cases y with
  | nil => exact absurd he (hb e b')
  | cons i y =>
    rw [List.cons_append, List.cons.injEq] at he
    exact ⟨e, y, by rw [he.1], hk⟩

/-- What comes after a separator starts with the entry of that key. -/
theorem SepEnt.next {a m b : List (Item Nat E)} {k : Nat} (h : SepEnt f (a ++ [.sep k] ++ m ++ b))
    (hb : ∀ e b', b ≠ .ent e :: b') : ∃ e m', m = .ent e :: m' ∧ f e = k := by
  obtain ⟨e, b', he, hk⟩ := h a k (m ++ b) (by simp)
  cases m with
  | nil => exact absurd he (hb e b')
  | cons i y =>
    rw [List.cons_append, List.cons.injEq] at he
    exact ⟨e, y, by rw [he.1], hk⟩

theorem rsq_not_ent (R : Rights Nat E) : ∀ e b', rsq R ≠ .ent e :: b' := by
  intro e b'
  cases R with
  | nil => simp
  | cons x R => simp

theorem lsq_split {L : Lefts Nat E} {x : Kid Nat E × Nat} (hx : x ∈ L) :
    ∃ A B, L = A ++ x :: B ∧ lsq L = lsq A ++ x.1.sq ++ .sep x.2 :: lsq B := by
  obtain ⟨A, B, rfl⟩ := List.append_of_mem hx
  exact ⟨A, B, rfl, by simp⟩

theorem rsq_split {R : Rights Nat E} {x : Nat × Kid Nat E} (hx : x ∈ R) :
    ∃ A B, R = A ++ x :: B ∧ rsq R = rsq A ++ .sep x.1 :: x.2.sq ++ rsq B := by
  obtain ⟨A, B, rfl⟩ := List.append_of_mem hx
  exact ⟨A, B, rfl, by simp⟩

/-- The part of the sequence before a child is empty or ends with a separator. -/
theorem lsq_end (L : Lefts Nat E) : lsq L = [] ∨ ∃ c k L', L = L' ++ [(c, k)] ∧ lsq L = lsq L' ++ c.sq ++ [.sep k] := by
  induction L using List.reverseRecOn with
  | nil => exact .inl rfl
  | append_singleton L x _ => exact .inr ⟨x.1, x.2, L, rfl, by simp⟩

theorem lsq_empty {L : Lefts Nat E} (h : lsq L = []) : L = [] := by
  cases L with
  | nil => rfl
  | cons x L => simp at h

theorem mem_lents {L : Lefts Nat E} {e : E} (h : e ∈ ents (lsq L)) : ∃ x ∈ L, e ∈ ents x.1.sq := by
  induction L with
  | nil => simp at h
  | cons x L ih =>
    simp at h
    rcases h with h | h
    · exact ⟨x, by simp, h⟩
    · obtain ⟨y, hy, h⟩ := ih h
      exact ⟨y, by simp [hy], h⟩

theorem mem_rents {R : Rights Nat E} {e : E} (h : e ∈ ents (rsq R)) : ∃ x ∈ R, e ∈ ents x.2.sq := by
  induction R with
  | nil => simp at h
  | cons x R ih =>
    simp at h
    rcases h with h | h
    · exact ⟨x, by simp, h⟩
    · obtain ⟨y, hy, h⟩ := ih h
      exact ⟨y, by simp [hy], h⟩

theorem rights_sublist {g : Kid Nat E → List E} (R : Rights Nat E) (h : ∀ x ∈ R, (g x.2).Sublist (ents x.2.sq)) :
    ((R.map (·.2)).flatMap g).Sublist (ents (rsq R)) := by
  induction R with
  | nil => simp
  | cons x R ih =>
    simp only [List.map_cons, List.flatMap_cons, rsq_cons, ents_sep, ents_append]
    exact (h x (by simp)).append (ih fun y hy => h y (by simp [hy]))

theorem lefts_sublist {g : Kid Nat E → List E} (L : Lefts Nat E) (h : ∀ x ∈ L, (g x.1).Sublist (ents x.1.sq).reverse) :
    (((L.map (·.1)).reverse).flatMap g).Sublist (ents (lsq L)).reverse := by
  induction L with
  | nil => simp
  | cons x L ih =>
    simp only [List.map_cons, List.reverse_cons, List.flatMap_append, List.flatMap_cons, List.flatMap_nil, lsq_cons,
      ents_sep, ents_append, List.reverse_append, List.append_nil]
    exact (ih fun y hy => h y (by simp [hy])).append (h x (by simp))

variable {Y : Layout Nat E} {D : Walk Nat E} {v : Nat → Option Node} {bs : List Nat → Nat → Nat} {N : Prop}

theorem range_node (hbs : Bs bs) (O : Ops Nat) (hback : D.back = back) (id : Nat) {L : Lefts Nat E} {m : Kid Nat E}
    {R : Rights Nat E} (hpre : RangePre f start back N (nodeKid O id L m R))
    (hi : firstIdx bs start back (keysOf L R) (kidsOf L m.id R) = L.length) :
    (∀ c ∈ visited D L m R, RangePre f start back N c) ∧
    ∀ g : Kid Nat E → List E, (∀ c ∈ visited D L m R, RangeOut f start back c (g c)) →
      RangeOut f start back (nodeKid O id L m R) ((visited D L m R).flatMap g) := by
  have hw : Weak f (lsq L ++ m.sq ++ rsq R) := hpre.weak
  have hse : SepEnt f (lsq L ++ m.sq ++ rsq R) := hpre.sep
  have hfi : N → back = true → ∀ s ∈ start, ∀ e b, lsq L ++ m.sq ++ rsq R = .ent e :: b → f e ≤ s := hpre.first
  -- a child at any place satisfies the precondition if the separators left of it are not above `start`
  have child : ∀ (a : List (Item Nat E)) (c : Kid Nat E) (b : List (Item Nat E)),
      lsq L ++ m.sq ++ rsq R = a ++ c.sq ++ b → (∀ e b', b ≠ .ent e :: b') →
      (a = [] ∨ ∃ a' k, a = a' ++ [.sep k] ∧ ∀ s ∈ start, back = true → k ≤ s) → RangePre f start back N c := by
    intro a c b he hb ha
    rw [he] at hw hse hfi
    refine ⟨hw.sublist ((List.sublist_append_right _ _).trans (List.sublist_append_left _ _)), hse.mid hb, ?_⟩
    intro hN hbk s hs e c' hc
    rcases ha with rfl | ⟨a', k, rfl, hk⟩
    · rw [hc] at hfi
      exact hfi hN hbk s hs e (c' ++ b) (by simp)
    · obtain ⟨e', m', hm', hk'⟩ := hse.next hb
      rw [hc] at hm'
      cases hm'
      rw [hk']; exact hk s hs hbk
  have hm : ∀ (hL : ∀ k, .sep k ∈ lsq L → ∀ s ∈ start, back = true → k ≤ s), RangePre f start back N m := by
    intro hL
    refine child (lsq L) m (rsq R) rfl (rsq_not_ent R) ?_
    rcases lsq_end L with h | ⟨c, k, L', _, h⟩
    · exact .inl h
    · exact .inr ⟨lsq L' ++ c.sq, k, h, hL k (by rw [h]; simp)⟩
  have hlefts : (∀ k, .sep k ∈ lsq L → ∀ s ∈ start, back = true → k ≤ s) → ∀ x ∈ L, RangePre f start back N x.1 := by
    intro hL x hx
    obtain ⟨A, B, rfl, he⟩ := lsq_split hx
    refine child (lsq A) x.1 (.sep x.2 :: lsq B ++ m.sq ++ rsq R) (by rw [he]; simp) (by simp) ?_
    rcases lsq_end A with h | ⟨c, k, L', _, h⟩
    · exact .inl h
    · exact .inr ⟨lsq L' ++ c.sq, k, h, hL k (by rw [he, h]; simp)⟩
  have hrights : back = false → ∀ x ∈ R, RangePre f start back N x.2 := by
    intro hb x hx
    obtain ⟨A, B, rfl, he⟩ := rsq_split hx
    refine child (lsq L ++ m.sq ++ rsq A ++ [.sep x.1]) x.2 (rsq B) (by rw [he]; simp) (rsq_not_ent B) ?_
    exact .inr ⟨lsq L ++ m.sq ++ rsq A, x.1, rfl, by simp [hb]⟩
  -- separators on the left, per case
  have hsep : ∀ k, .sep k ∈ lsq L → ∀ s ∈ start, back = true → k ≤ s := by
    intro k hk s hs _
    cases hst : start with
    | none => rw [hst] at hs; cases hs
    | some s' =>
      rw [hst] at hs hi; cases hs
      exact (between (f := f) (m := m) hbs (O := O) (id := id) hpre.weak hi.symm).left _ hk
  refine ⟨?_, ?_⟩
  · intro c hc
    unfold visited at hc
    rw [hback] at hc
    split at hc
    · rcases List.mem_cons.mp hc with rfl | hc
      · exact hm hsep
      · obtain ⟨x, hx, rfl⟩ := List.mem_map.mp (List.mem_reverse.mp hc)
        exact hlefts hsep x hx
    · next hb =>
      have hb : back = false := by simpa using hb
      rcases List.mem_cons.mp hc with rfl | hc
      · exact hm hsep
      · obtain ⟨x, hx, rfl⟩ := List.mem_map.mp hc
        exact hrights hb x hx
  · intro g hg
    unfold visited at hg ⊢
    rw [hback] at hg ⊢
    refine ⟨?_, ?_, ?_⟩
    · -- order
      by_cases hb : back
      · subst hb
        simp only [if_true] at hg ⊢
        have hL : ((L.map (·.1)).reverse.flatMap g).Sublist (ents (lsq L)).reverse :=
          lefts_sublist L fun x hx => by
            have := (hg x.1 (by simp; exact .inr ⟨_, hx⟩)).sub
            simpa using this
        have hM : (g m).Sublist (ents m.sq).reverse := by simpa using (hg m (by simp)).sub
        simp only [List.flatMap_cons, nodeKid, ents_append, List.reverse_append]
        exact (hM.append hL).trans (List.sublist_append_right _ _)
      · have hb : back = false := by simpa using hb
        subst hb
        simp only [Bool.false_eq_true, if_false] at hg ⊢
        have hR : ((R.map (·.2)).flatMap g).Sublist (ents (rsq R)) :=
          rights_sublist R fun x hx => by
            have := (hg x.2 (by simp; exact .inr ⟨_, hx⟩)).sub
            simpa using this
        have hM : (g m).Sublist (ents m.sq) := by simpa using (hg m (by simp)).sub
        simp only [List.flatMap_cons, nodeKid, ents_append]
        rw [List.append_assoc]
        exact (hM.append hR).trans (List.sublist_append_right _ _)
    · intro e he
      rw [List.mem_flatMap] at he
      obtain ⟨c, hc, he⟩ := he
      exact (hg c hc).sound e he
    · intro e he hr
      -- it is enough to find an entry with this key in a visited child
      have key : ∀ c, c ∈ (if back = true then m :: (L.map (·.1)).reverse else m :: R.map (·.2)) →
          ∀ e' ∈ ents c.sq, f e' = f e → ∃ e'' ∈ (if back = true then m :: (L.map (·.1)).reverse else m :: R.map (·.2)).flatMap g,
            f e'' = f e := by
        intro c hc e' he' hk
        obtain ⟨e'', h1, h2⟩ := (hg c hc).complete e' he' (by rw [hk]; exact hr)
        exact ⟨e'', List.mem_flatMap.mpr ⟨c, hc, h1⟩, h2.trans hk⟩
      -- if the key is a separator, the chosen child begins with an entry of that key
      have hit : ∀ s, start = some s → s ∈ keysOf L R → f e = s → ∃ e' ∈ ents m.sq, f e' = f e := by
        intro s hs hk hes
        rw [hs] at hi
        obtain ⟨L', c, rfl⟩ := (between (f := f) (m := m) hbs (O := O) (id := id) hpre.weak hi.symm).hit hk
        have h2 : SepEnt f ((lsq L' ++ c.sq) ++ [.sep s] ++ m.sq ++ rsq R) := by simpa using hse
        obtain ⟨e', m', h3, h4⟩ := h2.next (rsq_not_ent R)
        exact ⟨e', by rw [h3]; simp, by rw [h4, hes]⟩
      have hmv : m ∈ (if back = true then m :: (L.map (·.1)).reverse else m :: R.map (·.2)) := by split <;> simp
      simp only [nodeKid, ents_append, List.mem_append] at he
      rcases he with (he | he) | he
      · obtain ⟨x, hx, hex⟩ := mem_lents he
        by_cases hb : back
        · exact key x.1 (by simp only [hb, if_true]; simp; exact .inr ⟨_, hx⟩) e hex rfl
        · have hb : back = false := by simpa using hb
          cases hst : start with
          | none =>
            rw [hst, hb] at hi
            simp only [firstIdx, Bool.false_eq_true, if_false] at hi
            rw [List.eq_nil_of_length_eq_zero hi.symm] at hx
            cases hx
          | some s =>
            have hi' := hi
            rw [hst] at hi'
            have bt := between (f := f) (m := m) hbs (O := O) (id := id) hpre.weak hi'.symm
            rw [hst, hb] at hr
            have hse' : s ≤ f e := by simpa [InRange] using hr
            obtain ⟨A, B, hAB, hl⟩ := lsq_split hx
            have hk : x.2 ≤ s := bt.left (.sep x.2) (by rw [hl]; simp)
            have hex' : f e ≤ x.2 := by
              have h3 : Weak f (lsq A ++ x.1.sq ++ .sep x.2 :: lsq B) := by
                rw [← hl]; exact hw.sublist ((List.sublist_append_left _ _).trans (List.sublist_append_left _ _))
              exact (List.pairwise_append.mp h3).2.2 (.ent e) (by simp [mem_ents.mp hex]) (.sep x.2) (by simp)
            have hfe : f e = s := by omega
            have hxs : x.2 = s := by omega
            obtain ⟨e', h5, h6⟩ := hit s hst (by rw [← hxs]; simp [keysOf]; exact .inl ⟨_, hx⟩) hfe
            exact key m hmv e' h5 h6
      · exact key m hmv e he rfl
      · obtain ⟨x, hx, hex⟩ := mem_rents he
        by_cases hb : back
        · cases hst : start with
          | none =>
            rw [hst] at hi
            simp only [firstIdx, hb, if_true] at hi
            have : R.length = 0 := by
              have := kidsOf_length L m.id R
              simp only [keysOf, List.length_append, List.length_map] at this
              omega
            rw [List.eq_nil_of_length_eq_zero this] at hx
            cases hx
          | some s =>
            have hi' := hi
            rw [hst] at hi'
            have bt := between (f := f) (m := m) hbs (O := O) (id := id) hpre.weak hi'.symm
            rw [hst, hb] at hr
            have hse' : f e ≤ s := by simpa [InRange] using hr
            obtain ⟨A, B, hAB, hl⟩ := rsq_split hx
            have hk : s ≤ x.1 := bt.right (.sep x.1) (by rw [hl]; simp)
            have hex' : x.1 ≤ f e := by
              have h3 : Weak f (rsq A ++ .sep x.1 :: x.2.sq ++ rsq B) := by
                rw [← hl]; exact hw.sublist (List.sublist_append_right _ _)
              rw [List.append_assoc] at h3
              have h4 := (List.pairwise_append.mp h3).2.1
              rw [List.cons_append] at h4
              exact (List.pairwise_cons.mp h4).1 (.ent e) (by simp [mem_ents.mp hex])
            have hfe : f e = s := by omega
            have hxs : x.1 = s := by omega
            obtain ⟨e', h5, h6⟩ := hit s hst (by rw [← hxs]; simp [keysOf]; exact .inr ⟨_, hx⟩) hfe
            exact key m hmv e' h5 h6
        · have hb : back = false := by simpa using hb
          exact key x.2 (by simp only [hb, Bool.false_eq_true, if_false]; simp; exact .inr ⟨_, hx⟩) e hex rfl

theorem firstIdx_le (hbs : Bs bs) (start : Option Nat) (back : Bool) {keys kids : List Nat}
    (h : kids.length = keys.length + 1) : firstIdx bs start back keys kids ≤ keys.length := by
  unfold firstIdx
  split
  · exact hbs.le _ _
  · split <;> omega

/-- Traversal of a tree ordered by position. -/
theorem range_spec (hbs : Bs bs) (hun : D.un = Y.ops.un) (hback : D.back = back)
    (hfirst : ∀ keys kids, Y.fit keys → D.first keys kids = some (firstIdx bs start back keys kids))
    (hleaf : ∀ k, Y.Leaf k → RangePre f start back N k → Sees v k.pg →
      ∃ l, Visit D v k.id none l (walkCost k) ∧ RangeOut f start back k l)
    {K : Kid Nat E} (hK : Tr Y K) (hpre : RangePre f start back N K) (hs : Sees v K.pg) :
    ∃ l, Visit D v K.id none l (walkCost K) ∧ RangeOut f start back K l := by
  refine walk_spec hun (RangeOut f start back) (RangePre f start back N) hleaf ?_ ?_ hK hpre hs
  · intro keys kids hl hf
    exact ⟨_, firstIdx_le hbs start back hl, hfirst keys kids hf⟩
  · intro id L m R _ _ _ hp hfit hf
    rw [hfirst _ _ hfit] at hf
    exact range_node hbs Y.ops hback id hp (Option.some.inj hf)

end Uma.Page
