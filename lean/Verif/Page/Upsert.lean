import Verif.Page.EventsRead

/-!
# Putting an entry into a sorted leaf, and what that does to the content of the tree
-/

namespace Uma.Page
open Uma.Codec

variable {κ E : Type} [LinearOrder κ] {f : E → κ}

/-- Replace the entry with the same key or insert at the place given by the binary search. -/
def putEnt (f : E → κ) (e : E) (es : List E) : List E :=
  match searchIdx (es.map f) (f e) with
  | .ok i => es.set i e
  | .error i => es.insertIdx i e

/-- Entries below, the entry with the key, and entries above. -/
theorem putEnt_split {es : List E} (hk : (es.map f).Pairwise (· < ·)) (e : E) :
    ∃ A m B, es = A ++ m ++ B ∧ putEnt f e es = A ++ e :: B ∧ (m = [] ∨ ∃ o, m = [o] ∧ f o = f e) ∧
      (∀ a ∈ A, f a < f e) ∧ (∀ b ∈ B, f e < f b) ∧
      (match searchIdx (es.map f) (f e) with
        | .ok i => i = A.length ∧ m ≠ []
        | .error i => i = A.length ∧ m = []) := by
  have hw : (es.map f).Pairwise (· ≤ ·) := hk.imp le_of_lt
  unfold putEnt
  cases hs : searchIdx (es.map f) (f e) with
  | ok i =>
    obtain ⟨h1, h2⟩ := searchIdx_ok hs
    rw [List.getElem?_map] at h1
    obtain ⟨o, h3, h4⟩ := Option.map_eq_some_iff.mp h1
    obtain ⟨hlt, rfl⟩ := List.getElem?_eq_some_iff.mp h3
    have hes : es = es.take i ++ es[i] :: es.drop (i + 1) := by
      rw [← List.drop_eq_getElem_cons hlt, List.take_append_drop]
    have hk2 := List.pairwise_map.mp hk
    rw [hes] at hk2
    obtain ⟨_, h5, h6⟩ := List.pairwise_append.mp hk2
    refine ⟨es.take i, [es[i]], es.drop (i + 1), by simp, ?_, .inr ⟨_, rfl, h4⟩, ?_, ?_, ?_, by simp⟩
    · show es.set i e = _
      rw [List.set_eq_take_append_cons_drop, if_pos hlt]
    · intro a ha; rw [← h4]; exact h6 a ha _ List.mem_cons_self
    · intro b hb; rw [← h4]; exact (List.pairwise_cons.mp h5).1 b hb
    · simp; omega
  | error i =>
    obtain ⟨rfl, h2⟩ := searchIdx_error hw hs
    obtain ⟨h3, h4⟩ := ub_split (f e) _ hw
    have hle := ub_le (es.map f) (f e)
    simp only [List.length_map] at hle
    generalize ub (es.map f) (f e) = i at *
    refine ⟨es.take i, [], es.drop i, by simp, ?_, .inl rfl, ?_, ?_, ?_, rfl⟩
    · show es.insertIdx i e = _
      have := insertIdx_at (es.take i) (es.drop i) e
      rwa [List.take_append_drop, List.length_take, Nat.min_eq_left hle] at this
    · intro a ha
      have := h3 (f a) (by rw [← List.map_take]; exact List.mem_map_of_mem ha)
      refine lt_of_le_of_ne this fun h => h2 ?_
      rw [← h]; exact List.mem_map_of_mem (List.mem_of_mem_take ha)
    · intro b hb
      exact h4 (f b) (by rw [← List.map_drop]; exact List.mem_map_of_mem hb)
    · simp [hle]

omit [LinearOrder κ] in
theorem mem_ent_map {es : List E} {e : E} : Item.ent (κ := κ) e ∈ es.map Item.ent ↔ e ∈ es := by simp

theorem strict_keys {es : List E} (h : Strict f (es.map Item.ent)) : (es.map f).Pairwise (· < ·) := by
  have h2 := List.pairwise_map.mp h
  refine List.pairwise_map.mpr (h2.imp ?_)
  rintro a b (h | ⟨_, h, _⟩)
  · exact h
  · cases h

/-- Replacing or inserting an entry at its place keeps the order. -/
theorem Strict.put {P S : List (Item κ E)} {A m B : List E} {e : E}
    (h : Strict f (P ++ (A ++ m ++ B).map .ent ++ S)) (hP : ∀ i ∈ P, i.key f < f e ∨ i = .sep (f e))
    (hS : ∀ i ∈ S, f e < i.key f) (hA : ∀ a ∈ A, f a < f e) (hB : ∀ b ∈ B, f e < f b) :
    Strict f (P ++ (A ++ e :: B).map .ent ++ S) := by
  have h0 : Strict f (P ++ A.map .ent ++ (B.map .ent ++ S)) := by
    refine List.Pairwise.sublist ?_ h
    simp only [List.map_append, List.append_assoc]
    refine List.Sublist.append_left (List.Sublist.append_left ?_ _) _
    exact List.sublist_append_right _ _
  obtain ⟨h1, h2, h3⟩ := List.pairwise_append.mp h0
  have : P ++ (A ++ e :: B).map .ent ++ S = P ++ A.map .ent ++ (.ent e :: (B.map .ent ++ S)) := by simp
  rw [this]
  refine List.pairwise_append.mpr ⟨h1, List.pairwise_cons.mpr ⟨?_, h2⟩, ?_⟩
  · intro b hb
    rcases List.mem_append.mp hb with hb | hb
    · obtain ⟨b', hb', rfl⟩ := List.mem_map.mp hb
      exact .inl (hB b' hb')
    · exact .inl (hS b hb)
  · intro a ha b hb
    rcases List.mem_cons.mp hb with rfl | hb
    · rcases List.mem_append.mp ha with ha | ha
      · rcases hP a ha with h | rfl
        · exact .inl h
        · exact .inr ⟨rfl, rfl, rfl⟩
      · obtain ⟨a', ha', rfl⟩ := List.mem_map.mp ha
        exact .inl (hA a' ha')
    · exact h3 a ha b hb

/-- A separator before an entry that follows another entry. -/
theorem Strict.addSep {P S : List (Item κ E)} {a b : E} (h : Strict f (P ++ .ent a :: .ent b :: S)) :
    Strict f (P ++ .ent a :: .sep (f b) :: .ent b :: S) := by
  have h' : Strict f ((P ++ [.ent a]) ++ (.ent b :: S)) := by simpa using h
  obtain ⟨h1, h2, h3⟩ := List.pairwise_append.mp h'
  have : P ++ .ent a :: .sep (f b) :: .ent b :: S = (P ++ [.ent a]) ++ (.sep (f b) :: .ent b :: S) := by simp
  rw [this]
  have hab : f a < f b := by
    rcases h3 (.ent a) (by simp) (.ent b) (by simp) with h | ⟨_, h, _⟩
    · exact h
    · cases h
  have hP : ∀ i ∈ P ++ [.ent a], i.key f < f b := by
    intro i hi
    rcases List.mem_append.mp hi with hi | hi
    · have : ItemLt f i (.ent a) := (List.pairwise_append.mp h1).2.2 i hi _ (by simp)
      rcases this with h | ⟨h, _⟩
      · exact lt_trans h hab
      · rw [h]; exact hab
    · cases List.mem_singleton.mp hi; exact hab
  refine List.pairwise_append.mpr ⟨h1, List.pairwise_cons.mpr ⟨?_, h2⟩, ?_⟩
  · intro i hi
    rcases List.mem_cons.mp hi with rfl | hi
    · exact .inr ⟨rfl, rfl, rfl⟩
    · rcases (List.pairwise_cons.mp h2).1 i hi with h | ⟨_, h, _⟩
      · exact .inl h
      · cases h
  · intro i hi j hj
    rcases List.mem_cons.mp hj with rfl | hj
    · exact .inl (hP i hi)
    · exact h3 i hi j hj

/-- The content of a leaf that may have been split at its `n`-th entry. -/
def splitSq (f : E → κ) (es : List E) (n : Option Nat) : List (Item κ E) :=
  match n with
  | none => es.map .ent
  | some n =>
    match es[n]? with
    | none => es.map .ent
    | some e => (es.take n).map .ent ++ .sep (f e) :: (es.drop n).map .ent

omit [LinearOrder κ] in
theorem ents_splitSq (es : List E) (n : Option Nat) : ents (splitSq f es n) = es := by
  unfold splitSq
  split
  · simp
  · split
    · simp
    · rw [ents_append, ents_sep, ents_map, ents_map, List.take_append_drop]

theorem Strict.splitSq {P S : List (Item κ E)} {es : List E} (h : Strict f (P ++ es.map .ent ++ S)) (n : Option Nat)
    (hn : ∀ i ∈ n, 0 < i) : Strict f (P ++ Uma.Page.splitSq f es n ++ S) := by
  unfold Uma.Page.splitSq
  split
  · exact h
  · next i =>
    split
    · exact h
    · next e he =>
      have h0 : 0 < i := hn i rfl
      obtain ⟨hlt, rfl⟩ := List.getElem?_eq_some_iff.mp he
      obtain ⟨j, rfl⟩ : ∃ j, i = j + 1 := ⟨i - 1, by omega⟩
      have hj : j < es.length := by omega
      have e1 : es = es.take j ++ es[j] :: es[j + 1] :: es.drop (j + 1 + 1) := by
        rw [← List.drop_eq_getElem_cons hlt, ← List.drop_eq_getElem_cons hj, List.take_append_drop]
      have e2 : es.take (j + 1) = es.take j ++ [es[j]] := List.take_succ_eq_append_getElem hj
      have e3 : es.drop (j + 1) = es[j + 1] :: es.drop (j + 1 + 1) := List.drop_eq_getElem_cons hlt
      have h' : Strict f ((P ++ (es.take j).map .ent) ++ .ent es[j] :: .ent es[j + 1] ::
          ((es.drop (j + 1 + 1)).map .ent ++ S)) := by
        have e4 : P ++ es.map Item.ent ++ S = (P ++ (es.take j).map .ent) ++ .ent es[j] :: .ent es[j + 1] ::
            ((es.drop (j + 1 + 1)).map .ent ++ S) := by
          conv_lhs => rw [e1]
          simp only [List.map_append, List.map_cons, List.append_assoc, List.cons_append]
        exact e4 ▸ h
      have := h'.addSep
      rw [e2, e3]
      simpa only [List.map_append, List.map_cons, List.map_nil, List.append_assoc, List.cons_append, List.nil_append]
        using this

omit [LinearOrder κ] in
theorem Dense.splitSq {P S : List (Item κ E)} {es es' : List E} (h : Dense (P ++ es.map .ent ++ S)) (he : es' ≠ []) (n : Option Nat)
    (hn : ∀ i ∈ n, 0 < i) : Dense (P ++ Uma.Page.splitSq f es' n ++ S) := by
  have hS : Dense S := h.right
  rw [List.append_assoc] at h ⊢
  obtain ⟨e, es', rfl⟩ := List.exists_cons_of_ne_nil he
  refine h.change ?_ ?_
  · unfold Uma.Page.splitSq
    split
    · exact ⟨e, _, rfl⟩
    · next i =>
      split
      · exact ⟨e, _, rfl⟩
      · obtain ⟨j, rfl⟩ : ∃ j, i = j + 1 := ⟨i - 1, by have := hn i rfl; omega⟩
        exact ⟨e, _, rfl⟩
  · unfold Uma.Page.splitSq
    split
    · exact dense_ents _ hS
    · next i =>
      split
      · exact dense_ents _ hS
      · next x hx =>
        rw [List.append_assoc]
        refine dense_ents _ ⟨?_, dense_ents _ hS⟩
        obtain ⟨hlt, -⟩ := List.getElem?_eq_some_iff.mp hx
        rw [List.drop_eq_getElem_cons hlt]
        exact ⟨_, _, rfl⟩

/-! ## After the leaf has been changed -/

theorem mem_fpg {κ E : Type} {O : Ops κ} {f : Fr κ E} : ∀ (fs : List (Fr κ E)) (c : Nat), f ∈ fs →
    f.id ∈ ids (fpg O fs c) := by
  intro fs
  induction fs with
  | nil => intro c h; cases h
  | cons g fs ih =>
    intro c h
    simp only [fpg, ids_add, ids_singleton, Multiset.mem_add, Multiset.mem_singleton]
    rcases List.mem_cons.mp h with rfl | h
    · exact .inl (.inl rfl)
    · exact .inr (ih _ h)

/-- The way up and the new root. -/
def finish {κ : Type} (O : Ops κ) (root : Nat) (st : List (Nat × Nat)) (old new : Nat) (s : Option (κ × Nat)) : W Nat := do
  let up ← walkUp O st (replInfo old new) s
  fixRoot O root up.1 up.2

theorem finish_spec {κ E : Type} {Y : Layout κ E} {A : Nat → Prop} {X : Multiset Nat} {w : Writer}
    {Q : Multiset (Nat × Node)} {fs : List (Fr κ E)} {c0 : Nat} {t1 : Kid κ E} {s : Promo κ E}
    (hfs : ∀ f ∈ fs, FrOk Y f) (hr : ∀ f ∈ fs, Y.ops.rightmost = true → f.R = []) (ht : Tr Y t1) (hs : PromoOk Y s)
    (hkw : w.kw = Y.kw) (hps : w.pageSize = Y.ps) (hw : Own w A X (t1.pg + rpg s.rights + fpg Y.ops fs c0 + Q))
    (hload : ∀ f ∈ fs, Loaded w f.id) :
    Run (finish Y.ops (rootOf fs c0) (stackOf fs) c0 t1.id s.ref) w fun id w' => ∃ U : Kid κ E, Tr Y U ∧ U.id = id ∧
      U.sq = zl fs ++ (t1.sq ++ rsq s.rights) ++ zr fs ∧ Own w' A X (U.pg + Q) ∧ Keep Q w w' ∧
      Keep (t1.pg + rpg s.rights + side fs + Q) w w' ∧
      ∀ k : Kid κ E, k.dep = {0} → Even (plug Y.ops fs k) → t1.dep = {0} → (∀ x ∈ s.rights, x.2.dep = {0}) → Even U := by
  unfold finish
  refine (walkUp_spec fs w Q c0 t1 s hfs hr ht hs hkw hps hw hload).andThen ?_
  rintro up w6 ⟨T, S, hT, hS, rfl, hTS, h6, k6, l6, hd⟩
  refine (fixRoot_spec hT hS (rootOf fs c0) h6).mono ?_
  rintro root w7 ⟨U, hU, hid, hUsq, h7, k7, hd7⟩
  have hk : Keep (t1.pg + rpg s.rights + side fs + Q) w w7 := k6.trans (k7.sub (add_le_add_left l6 _))
  exact ⟨U, hU, hid, by rw [hUsq, hTS]; simp, h7, hk.sub (Multiset.le_add_left _ _), hk,
    fun k e1 e2 e3 e4 => even_up e2 e1 e3 e4 hd hd7⟩

end Uma.Page
