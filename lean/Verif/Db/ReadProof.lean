import Verif.Spec.Log
import Verif.Db.Read

/-! Helper lemmas for the read path: scan loop, merge, grouping, tag loop. -/

set_option linter.unusedSimpArgs false

namespace Uma.Db
open Uma.Spec

/-- A snapshot presents exactly the log `log` when tags are hashed by `H`. -/
structure Refines (H : String → TagHash) (s : Snap) (log : Log) : Prop where
  scan : ∀ st b, s.scan st b =
    ((let sel := (numberFrom 1 log).filter (fun p => decide (InRange st b p.1))
      if b then sel.reverse else sel), none)
  lookup : ∀ p r, (p, r) ∈ numberFrom 1 log → s.lookup p = .ok r
  tagMem : ∀ h st b p, p ∈ s.tagScan h st b ↔
    ∃ r, (p, r) ∈ numberFrom 1 log ∧ InRange st b p ∧ ∃ t ∈ r.event.tags, H t = h
  tagOrd : ∀ h st b, (s.tagScan h st b).Pairwise (fun x y => before b y x = false)

/-! ## numberFrom -/

theorem mem_numberFrom {α} {n p : Nat} {a : α} {l : List α} :
    (p, a) ∈ numberFrom n l ↔ n ≤ p ∧ l[p - n]? = some a := by
  induction l generalizing n with
  | nil => simp [numberFrom]
  | cons x l ih =>
    simp only [numberFrom, List.mem_cons, Prod.mk.injEq, ih]
    constructor
    · rintro (⟨rfl, rfl⟩ | ⟨h1, h2⟩)
      · simp
      · refine ⟨by omega, ?_⟩
        have : p - n = (p - (n + 1)) + 1 := by omega
        rw [this]; simpa using h2
    · rintro ⟨h1, h2⟩
      by_cases hp : p = n
      · left; subst hp; simp at h2; exact ⟨rfl, h2.symm⟩
      · right
        refine ⟨by omega, ?_⟩
        have : p - n = (p - (n + 1)) + 1 := by omega
        rw [this] at h2; simpa using h2

theorem numberFrom_pairwise {α} (n : Nat) (l : List α) :
    (numberFrom n l).Pairwise (fun x y => x.1 < y.1) := by
  induction l generalizing n with
  | nil => simp [numberFrom]
  | cons x l ih =>
    simp only [numberFrom, List.pairwise_cons]
    refine ⟨?_, ih _⟩
    rintro ⟨p, a⟩ h
    have := (mem_numberFrom.mp h).1
    simp; omega

@[simp] theorem numberFrom_length {α} (n : Nat) (l : List α) : (numberFrom n l).length = l.length := by
  induction l generalizing n with
  | nil => rfl
  | cons x l ih => simp [numberFrom, ih]

theorem numberFrom_append {α} (n : Nat) (l l' : List α) :
    numberFrom n (l ++ l') = numberFrom n l ++ numberFrom (n + l.length) l' := by
  induction l generalizing n with
  | nil => simp [numberFrom]
  | cons x l ih => simp [numberFrom, ih]; congr 1; omega

/-! ## Scan loop -/

theorem nextBatch_ok {c : Cancel} {fin : Option Err} {k n : Nat} {rem b r : List (Nat × Record)} {k' : Nat}
    (h : nextBatch c fin k n rem = .ok (b, r, k')) : b = rem.take n ∧ r = rem.drop n := by
  induction n generalizing k rem b r k' with
  | zero => simp [nextBatch] at h; obtain ⟨rfl, rfl, rfl⟩ := h; simp
  | succ n ih =>
    cases rem with
    | nil =>
      simp only [nextBatch] at h
      split at h
      · cases h
      · cases fin <;> simp at h
        obtain ⟨rfl, rfl, _⟩ := h; simp
    | cons x rem =>
      simp only [nextBatch] at h
      split at h
      · cases h
      · split at h
        · cases h
        · rename_i hb; cases h; have := ih hb; simp [this.1, this.2]

theorem nextBatch_error {c : Cancel} {k n : Nat} {rem : List (Nat × Record)} {e : Err}
    (h : nextBatch c none k n rem = .error e) : e = .cancelledByUser ∧ ∃ j, c j = true := by
  induction n generalizing k rem with
  | zero => simp [nextBatch] at h
  | succ n ih =>
    cases rem with
    | nil =>
      simp only [nextBatch] at h
      split at h
      · cases h; exact ⟨rfl, _, by assumption⟩
      · cases h
    | cons x rem =>
      simp only [nextBatch] at h
      split at h
      · cases h; exact ⟨rfl, _, by assumption⟩
      · split at h
        · rename_i hb; cases h; exact ih hb
        · cases h

def seqOf (l : List (Nat × Record)) : List SeqEvent := l.map (fun p => mkSeq p.1 p.2)

/-- Remaining limit after `n` results. -/
def remLimit (limit : Option Nat) (n : Nat) : Option Nat := limit.map (· - n)

def Below (limit : Option Nat) (n : Nat) : Prop := ∀ lim, limit = some lim → n < lim

theorem pushBatch_spec (m : Record → Bool) (limit : Option Nat) (b : List (Nat × Record))
    (out : List SeqEvent) (hb : Below limit out.length) :
    let F := seqOf (b.filter (fun p => m p.2))
    (limitReached limit (out.length + F.length) = true ∧
      pushBatch m limit b out = (out ++ applyLimit (remLimit limit out.length) F, true)) ∨
    (Below limit (out.length + F.length) ∧ pushBatch m limit b out = (out ++ F, false)) := by
  induction b generalizing out with
  | nil => right; simpa [seqOf, pushBatch] using hb
  | cons x b ih =>
    obtain ⟨pos, r⟩ := x
    by_cases hm : m r
    · simp only [pushBatch, hm, if_true]
      by_cases hl : limitReached limit (out ++ [mkSeq pos r]).length = true
      · left
        simp only [hl, if_true]
        cases limit with
        | none => simp [limitReached] at hl
        | some lim =>
          have := hb lim rfl
          simp [limitReached] at hl
          have hl' : lim = out.length + 1 := by omega
          simp [limitReached, seqOf, List.filter_cons, hm, applyLimit, remLimit, hl', List.take]
      · simp only [hl]
        have hb' : Below limit (out ++ [mkSeq pos r]).length := by
          intro lim h; subst h; simp [limitReached] at hl ⊢; omega
        have hlen : (seqOf (((pos, r) :: b).filter (fun p => m p.2))) =
            mkSeq pos r :: seqOf (b.filter (fun p => m p.2)) := by
          simp [seqOf, List.filter_cons, hm]
        rcases ih _ hb' with ⟨h1, h2⟩ | ⟨h1, h2⟩
        · left
          rw [hlen]
          refine ⟨?_, ?_⟩
          · rw [← h1]; congr 1; simp; omega
          · simp only [Bool.false_eq_true, if_false]
            rw [h2]
            cases limit with
            | none => simp [applyLimit, remLimit]
            | some lim =>
              have := hb' lim rfl
              simp at this
              have e : lim - out.length = (lim - (out.length + 1)) + 1 := by omega
              simp [applyLimit, remLimit, e]
        · right
          rw [hlen]
          refine ⟨?_, ?_⟩
          · intro lim h; have := h1 lim h; simp at this ⊢; omega
          · simp only [Bool.false_eq_true, if_false]; rw [h2]; simp
    · have hlen : (seqOf (((pos, r) :: b).filter (fun p => m p.2))) =
            seqOf (b.filter (fun p => m p.2)) := by
        simp [List.filter_cons, hm]
      have hp : pushBatch m limit ((pos, r) :: b) out = pushBatch m limit b out := by
        simp [pushBatch, hm]
      simp only [hp, hlen]
      exact ih out hb

theorem scanLoop_spec (m : Record → Bool) (batch : Nat) (limit : Option Nat) (c : Cancel)
    (hbatch : 0 < batch) (n : Nat) :
    ∀ (k : Nat) (rem : List (Nat × Record)) (out : List SeqEvent), rem.length ≤ n →
      Below limit out.length →
      scanLoop m batch limit c none k rem out =
        .ok (out ++ applyLimit (remLimit limit out.length) (seqOf (rem.filter (fun p => m p.2)))) ∨
      (scanLoop m batch limit c none k rem out = .error .cancelledByUser ∧ ∃ j, c j = true) := by
  induction n with
  | zero =>
    intro k rem out hn hb
    have : rem = [] := List.eq_nil_of_length_eq_zero (by omega)
    subst this
    rw [scanLoop]
    split
    · right; exact ⟨rfl, _, by assumption⟩
    · split
      · rename_i e he; right; obtain ⟨rfl, h⟩ := nextBatch_error he; exact ⟨rfl, h⟩
      · rename_i b rem' k' he
        obtain ⟨rfl, rfl⟩ := nextBatch_ok he
        left; simp [seqOf, applyLimit]; cases limit <;> simp [remLimit]
  | succ n ih =>
    intro k rem out hn hb
    rw [scanLoop]
    split
    · right; exact ⟨rfl, _, by assumption⟩
    · split
      · rename_i e he; right; obtain ⟨rfl, h⟩ := nextBatch_error he; exact ⟨rfl, h⟩
      · rename_i b rem' k' he
        obtain ⟨hb1, hb2⟩ := nextBatch_ok he
        split
        · rename_i hnil
          have : rem = [] := by
            rw [hb1] at hnil
            rcases List.take_eq_nil_iff.mp hnil with h | h
            · omega
            · exact h
          subst this
          left; simp [seqOf, applyLimit]; cases limit <;> simp [remLimit]
        · rename_i hne
          have hsplit : rem = b ++ rem' := by rw [hb1, hb2, List.take_append_drop]
          have hlen : rem'.length ≤ n := by
            have : 0 < b.length := List.length_pos_iff.mpr hne
            have := congrArg List.length hsplit
            simp at this; omega
          rcases pushBatch_spec m limit b out hb with ⟨h1, h2⟩ | ⟨h1, h2⟩
          · rw [h2]
            left
            congr 2
            subst hsplit
            cases limit with
            | none => simp [limitReached] at h1
            | some lim =>
              simp only [limitReached, decide_eq_true_eq] at h1
              have hle : lim - out.length ≤ (seqOf (b.filter (fun p => m p.2))).length := by omega
              simp only [applyLimit, remLimit, Option.map_some, List.filter_append, seqOf,
                List.map_append]
              rw [List.take_append_of_le_length (by simpa [seqOf] using hle)]
          · rw [h2]
            simp only
            have hb' : Below limit (out ++ seqOf (b.filter (fun p => m p.2))).length := by
              intro lim h; have := h1 lim h; simpa using this
            rcases ih k' rem' _ hlen hb' with h | h
            · left
              rw [h]
              congr 1
              subst hsplit
              simp only [List.append_assoc]
              congr 1
              cases limit with
              | none => simp [applyLimit, remLimit, seqOf]
              | some lim =>
                have := h1 lim rfl
                simp only [applyLimit, remLimit, Option.map_some, List.filter_append, seqOf,
                  List.map_append, List.length_append]
                simp only [seqOf] at this
                rw [List.take_append]
                rw [List.take_of_length_le (l := List.map _ (List.filter _ b)) (by omega)]
                congr 2; omega
            · right; exact h

/-! ## Sorted lists with equal members are equal -/

theorem eq_of_pairwise {α} {r : α → α → Prop} (irr : ∀ a, ¬ r a a) (asym : ∀ a b, r a b → ¬ r b a)
    {l l' : List α} (h : l.Pairwise r) (h' : l'.Pairwise r) (hm : ∀ a, a ∈ l ↔ a ∈ l') : l = l' := by
  induction l generalizing l' with
  | nil =>
    cases l' with
    | nil => rfl
    | cons b l' => have := (hm b).mpr (by simp); simp at this
  | cons a l ih =>
    cases l' with
    | nil => have := (hm a).mp (by simp); simp at this
    | cons b l' =>
      rw [List.pairwise_cons] at h h'
      have hab : a = b := by
        have ha := (hm a).mp (by simp)
        have hb := (hm b).mpr (by simp)
        rcases List.mem_cons.mp ha with e | ha
        · exact e
        rcases List.mem_cons.mp hb with e | hb
        · exact e.symm
        exact absurd (h'.1 a ha) (asym _ _ (h.1 b hb))
      subst hab
      congr 1
      apply ih h.2 h'.2
      intro x
      constructor
      · intro hx
        rcases List.mem_cons.mp ((hm x).mp (List.mem_cons_of_mem _ hx)) with e | h2
        · subst e; exact absurd (h.1 x hx) (irr x)
        · exact h2
      · intro hx
        rcases List.mem_cons.mp ((hm x).mpr (List.mem_cons_of_mem _ hx)) with e | h2
        · subst e; exact absurd (h'.1 x hx) (irr x)
        · exact h2

/-! ## Merge -/

theorem mem_merge2 {b : Bool} {xs ys : List TagItem} {z : TagItem} :
    z ∈ merge2 b xs ys ↔ z ∈ xs ∨ z ∈ ys := by
  fun_induction merge2 b xs ys <;> simp_all <;> grind

theorem mem_kmerge {b : Bool} {ls : List (List TagItem)} {z : TagItem} :
    z ∈ kmerge b ls ↔ ∃ l ∈ ls, z ∈ l := by
  induction ls with
  | nil => simp [kmerge]
  | cons l ls ih =>
    simp only [kmerge, List.foldr_cons, mem_merge2] at ih ⊢
    rw [ih]; simp

/-- Non-strict order: `y` does not come before `x`. -/
def ordered (b : Bool) (l : List TagItem) : Prop := l.Pairwise (fun x y => before b y.1 x.1 = false)

theorem before_trans_false {b : Bool} {x y z : Nat} (h1 : before b y x = false)
    (h2 : before b z y = false) : before b z x = false := by
  cases b <;> simp [before] at * <;> omega

theorem before_false_of_true {b : Bool} {x y : Nat} (h : before b y x = true) : before b x y = false := by
  cases b <;> simp [before] at * <;> omega

theorem merge2_ordered {b : Bool} {xs ys : List TagItem} (hx : ordered b xs) (hy : ordered b ys) :
    ordered b (merge2 b xs ys) := by
  fun_induction merge2 b xs ys with
  | case1 => exact hy
  | case2 => exact hx
  | case3 x xs y ys h ih =>
    have hx0 := hx; have hy0 := hy
    unfold ordered at *
    rw [List.pairwise_cons] at hx0 hy0
    refine List.pairwise_cons.mpr ⟨?_, ih hx hy0.2⟩
    intro z hz
    rcases mem_merge2.mp hz with hz | hz
    · rcases List.mem_cons.mp hz with e | hz
      · subst e; exact before_false_of_true h
      · exact before_trans_false (before_false_of_true h) (hx0.1 z hz)
    · exact hy0.1 z hz
  | case4 x xs y ys h ih =>
    have hx0 := hx; have hy0 := hy
    unfold ordered at *
    rw [List.pairwise_cons] at hx0 hy0
    refine List.pairwise_cons.mpr ⟨?_, ih hx0.2 hy⟩
    intro z hz
    have h' : before b y.1 x.1 = false := by simpa using h
    rcases mem_merge2.mp hz with hz | hz
    · exact hx0.1 z hz
    · rcases List.mem_cons.mp hz with e | hz
      · subst e; exact h'
      · exact before_trans_false h' (hy0.1 z hz)

theorem kmerge_ordered {b : Bool} {ls : List (List TagItem)} (h : ∀ l ∈ ls, ordered b l) :
    ordered b (kmerge b ls) := by
  induction ls with
  | nil => simp [kmerge, ordered]
  | cons l ls ih =>
    simp only [kmerge, List.foldr_cons]
    exact merge2_ordered (h l (by simp)) (ih (fun l hl => h l (by simp [hl])))

/-! ## Grouping -/

/-- Groups are complete: what belongs to position `p` among already consumed state and rest. -/
theorem groupByPos_some (b : Bool) (l : List TagItem) :
    ∀ (p : Nat) (tags : List String) (qiis : List Nat), ordered b l →
      (∀ x ∈ l, before b x.1 p = false) →
      (groupByPos l (some p) tags qiis).Pairwise (fun x y => before b x.1 y.1 = true) ∧
      (∀ g ∈ groupByPos l (some p) tags qiis, before b g.1 p = false) ∧
      (∀ g ∈ groupByPos l (some p) tags qiis,
        (g.1 = p ∨ ∃ x ∈ l, x.1 = g.1) ∧
        (∀ t, t ∈ g.2.1 ↔ (g.1 = p ∧ t ∈ tags) ∨ ∃ x ∈ l, x.1 = g.1 ∧ x.2.1 = t) ∧
        (∀ q, q ∈ g.2.2 ↔ (g.1 = p ∧ q ∈ qiis) ∨ ∃ x ∈ l, x.1 = g.1 ∧ q ∈ x.2.2)) ∧
      (∀ p', (p' = p ∨ ∃ x ∈ l, x.1 = p') → ∃ g ∈ groupByPos l (some p) tags qiis, g.1 = p') := by
  induction l with
  | nil =>
    intro p tags qiis _ _
    have : before b p p = false := by cases b <;> simp [before]
    simp [groupByPos, this]
  | cons x l ih =>
    obtain ⟨pos, tag, qs⟩ := x
    intro p tags qiis hord hb
    unfold ordered at hord
    rw [List.pairwise_cons] at hord
    have hpos : before b pos p = false := hb (pos, tag, qs) List.mem_cons_self
    simp only [groupByPos]
    by_cases hp : p ≠ pos
    · simp only [hp, ne_eq, not_false_eq_true, if_true]
      have hlt : before b p pos = true := by
        cases b <;> simp [before] at hpos ⊢ <;> omega
      obtain ⟨i1, i2, i3, i4⟩ := ih pos [tag] qs hord.2 hord.1
      have hne : ∀ y ∈ l, y.1 ≠ p := by
        intro y hy e
        have := hord.1 y hy
        simp only at this
        rw [e] at this; rw [this] at hlt; cases hlt
      refine ⟨?_, ?_, ?_, ?_⟩
      · refine List.pairwise_cons.mpr ⟨?_, i1⟩
        intro g hg
        have h := i2 g hg
        cases b <;> simp [before] at h hlt ⊢ <;> omega
      · intro g hg
        rcases List.mem_cons.mp hg with e | hg
        · subst e; cases b <;> simp [before]
        · have h := i2 g hg
          cases b <;> simp [before] at h hlt ⊢ <;> omega
      · intro g hg
        rcases List.mem_cons.mp hg with e | hg
        · subst e
          refine ⟨Or.inl rfl, ?_, ?_⟩
          · intro t; simp only [true_and]
            constructor
            · exact Or.inl
            · rintro (h | ⟨y, hy, h1, _⟩)
              · exact h
              · rcases List.mem_cons.mp hy with e | hy
                · subst e; exact absurd h1.symm hp
                · exact absurd h1 (hne y hy)
          · intro t; simp only [true_and]
            constructor
            · exact Or.inl
            · rintro (h | ⟨y, hy, h1, _⟩)
              · exact h
              · rcases List.mem_cons.mp hy with e | hy
                · subst e; exact absurd h1.symm hp
                · exact absurd h1 (hne y hy)
        · obtain ⟨j1, j2, j3⟩ := i3 g hg
          have hgp : g.1 ≠ p := by
            intro e; have h := i2 g hg; rw [e] at h; rw [h] at hlt; cases hlt
          refine ⟨?_, ?_, ?_⟩
          · right
            rcases j1 with h | ⟨y, hy, h⟩
            · exact ⟨_, List.mem_cons_self, h.symm⟩
            · exact ⟨y, List.mem_cons_of_mem _ hy, h⟩
          · intro t; rw [j2 t]; simp [hgp]; grind
          · intro t; rw [j3 t]; simp [hgp]; grind
      · rintro p' (h | ⟨y, hy, h⟩)
        · exact ⟨_, List.mem_cons_self, h.symm⟩
        · rcases List.mem_cons.mp hy with e | hy
          · subst e
            obtain ⟨g, hg, e⟩ := i4 p' (Or.inl h.symm)
            exact ⟨g, List.mem_cons_of_mem _ hg, e⟩
          · obtain ⟨g, hg, e⟩ := i4 p' (Or.inr ⟨y, hy, h⟩)
            exact ⟨g, List.mem_cons_of_mem _ hg, e⟩
    · have hp' : p = pos := by simpa using hp
      subst hp'
      simp only [ne_eq, not_true_eq_false, if_false]
      obtain ⟨i1, i2, i3, i4⟩ := ih p (tag :: tags) (qs ++ qiis) hord.2 hord.1
      refine ⟨i1, i2, ?_, ?_⟩
      · intro g hg
        obtain ⟨j1, j2, j3⟩ := i3 g hg
        refine ⟨?_, ?_, ?_⟩
        · rcases j1 with h | ⟨y, hy, h⟩
          · exact Or.inl h
          · exact Or.inr ⟨y, List.mem_cons_of_mem _ hy, h⟩
        · intro t; rw [j2 t]; simp; grind
        · intro t; rw [j3 t]; simp; grind
      · rintro p' (h | ⟨y, hy, h⟩)
        · exact i4 p' (Or.inl h)
        · rcases List.mem_cons.mp hy with e | hy
          · subst e; exact i4 p' (Or.inl h.symm)
          · exact i4 p' (Or.inr ⟨y, hy, h⟩)

theorem groupByPos_spec (b : Bool) (l : List TagItem) (hord : ordered b l) :
    (groupByPos l none [] []).Pairwise (fun x y => before b x.1 y.1 = true) ∧
    (∀ g ∈ groupByPos l none [] [],
        (∃ x ∈ l, x.1 = g.1) ∧
        (∀ t, t ∈ g.2.1 ↔ ∃ x ∈ l, x.1 = g.1 ∧ x.2.1 = t) ∧
        (∀ q, q ∈ g.2.2 ↔ ∃ x ∈ l, x.1 = g.1 ∧ q ∈ x.2.2)) ∧
    (∀ x ∈ l, ∃ g ∈ groupByPos l none [] [], g.1 = x.1) := by
  cases l with
  | nil => simp [groupByPos]
  | cons x l =>
    obtain ⟨pos, tag, qs⟩ := x
    unfold ordered at hord
    rw [List.pairwise_cons] at hord
    simp only [groupByPos, List.append_nil]
    obtain ⟨i1, i2, i3, i4⟩ := groupByPos_some b l pos [tag] qs hord.2 hord.1
    refine ⟨i1, ?_, ?_⟩
    · intro g hg
      obtain ⟨j1, j2, j3⟩ := i3 g hg
      refine ⟨?_, ?_, ?_⟩
      · rcases j1 with h | ⟨y, hy, h⟩
        · exact ⟨_, List.mem_cons_self, h.symm⟩
        · exact ⟨y, List.mem_cons_of_mem _ hy, h⟩
      · intro t; rw [j2 t]; simp; grind
      · intro t; rw [j3 t]; simp; grind
    · intro y hy
      rcases List.mem_cons.mp hy with e | hy
      · subst e; exact i4 _ (Or.inl rfl)
      · exact i4 _ (Or.inr ⟨y, hy, rfl⟩)

/-! ## Query inversion -/

theorem mem_addQii {tag : String} {qi : Nat} {m : List (String × List Nat)} {t : String} {q : Nat} :
    (∃ e ∈ addQii tag qi m, e.1 = t ∧ q ∈ e.2) ↔
      (∃ e ∈ m, e.1 = t ∧ q ∈ e.2) ∨ (t = tag ∧ q = qi) := by
  induction m with
  | nil => simp [addQii, eq_comm]
  | cons x m ih =>
    obtain ⟨t', qs⟩ := x
    simp only [addQii]
    split
    · rename_i h; subst h; simp; grind
    · simp only [List.mem_cons, exists_eq_or_imp, ih]; grind

theorem mem_foldl_addQii {tags : List String} {qi : Nat} {m : List (String × List Nat)} {t : String}
    {q : Nat} :
    (∃ e ∈ tags.foldl (fun m t => addQii t qi m) m, e.1 = t ∧ q ∈ e.2) ↔
      (∃ e ∈ m, e.1 = t ∧ q ∈ e.2) ∨ (t ∈ tags ∧ q = qi) := by
  induction tags generalizing m with
  | nil => simp
  | cons x tags ih => simp only [List.foldl_cons]; rw [ih, mem_addQii]; simp; grind

theorem mem_tagQiis_aux {items : List QueryItem} {n : Nat} {m : List (String × List Nat)} {t : String}
    {q : Nat} :
    (∃ e ∈ (items.zipIdx n).foldl (fun m (x : QueryItem × Nat) =>
        x.1.tags.foldl (fun m t => addQii t x.2 m) m) m, e.1 = t ∧ q ∈ e.2) ↔
      (∃ e ∈ m, e.1 = t ∧ q ∈ e.2) ∨ (n ≤ q ∧ ∃ it, items[q - n]? = some it ∧ t ∈ it.tags) := by
  induction items generalizing n m with
  | nil => simp
  | cons x items ih =>
    simp only [List.zipIdx_cons, List.foldl_cons]
    rw [ih, mem_foldl_addQii]
    constructor
    · rintro ((h | ⟨h1, h2⟩) | ⟨h1, it, h2, h3⟩)
      · exact Or.inl h
      · right; subst h2; exact ⟨by omega, x, by simp, h1⟩
      · right
        have : q - n = (q - (n + 1)) + 1 := by omega
        exact ⟨by omega, it, by rw [this]; simpa using h2, h3⟩
    · rintro (h | ⟨h1, it, h2, h3⟩)
      · exact Or.inl (Or.inl h)
      · by_cases hq : q = n
        · subst hq; simp at h2; subst h2; exact Or.inl (Or.inr ⟨h3, rfl⟩)
        · right
          have : q - n = (q - (n + 1)) + 1 := by omega
          rw [this] at h2
          exact ⟨by omega, it, by simpa using h2, h3⟩

theorem mem_tagQiis {items : List QueryItem} {t : String} {q : Nat} :
    (∃ e ∈ tagQiis items, e.1 = t ∧ q ∈ e.2) ↔ ∃ it, items[q]? = some it ∧ t ∈ it.tags := by
  unfold tagQiis
  rw [mem_tagQiis_aux (n := 0) (m := [])]
  simp

/-! ## Matching tests agree with the specification -/

theorem typeOk_iff {it : QueryItem} {r : Record} :
    typeOk it r = true ↔ (it.types = [] ∨ r.event.eventType ∈ it.types) := by
  simp [typeOk]

theorem tagsOk_iff {it : QueryItem} {r : Record} :
    tagsOk it r = true ↔ ∀ t ∈ it.tags, t ∈ r.event.tags := by
  simp [tagsOk]

theorem itemOk_iff {it : QueryItem} {r : Record} :
    (typeOk it r && tagsOk it r) = true ↔ ItemMatches it r.event := by
  rw [Bool.and_eq_true, typeOk_iff, tagsOk_iff]; rfl

theorem matchesItem_iff {items : List QueryItem} {r : Record} :
    matchesItem items r = true ↔ ∃ it ∈ items, ItemMatches it r.event := by
  simp only [matchesItem, List.any_eq_true, itemOk_iff]

/-! ## Tag loop -/

/-- Does a group lead to an emitted event, given the record at its position? -/
def groupGood (items : List QueryItem) (r : Record) (g : Group) : Bool :=
  (matchingQiis items g.2.1 g.2.2).any (fun it => typeOk it r && tagsOk it r)

theorem tagLoop_spec (s : Snap) (items : List QueryItem) (limit : Option Nat) (c : Cancel)
    (R : Nat → Record) (gs : List Group) :
    ∀ (k : Nat) (out : List SeqEvent), (∀ g ∈ gs, s.lookup g.1 = .ok (R g.1)) →
      Below limit out.length →
      tagLoop s items limit c k gs out =
        .ok (out ++ applyLimit (remLimit limit out.length)
          ((gs.filter (fun g => groupGood items (R g.1) g)).map (fun g => mkSeq g.1 (R g.1)))) ∨
      (tagLoop s items limit c k gs out = .error .cancelledByUser ∧ ∃ j, c j = true) := by
  induction gs with
  | nil => intro k out _ _; left; cases limit <;> simp [tagLoop, applyLimit, remLimit]
  | cons g gs ih =>
    obtain ⟨pos, tp, qp⟩ := g
    intro k out hl hb
    have hl' : ∀ g ∈ gs, s.lookup g.1 = .ok (R g.1) := fun g hg => hl g (by simp [hg])
    have hpos : s.lookup pos = .ok (R pos) := hl (pos, tp, qp) (by simp)
    simp only [tagLoop]
    split
    · right; exact ⟨rfl, _, by assumption⟩
    · split
      · rename_i hemp
        have hg : groupGood items (R pos) (pos, tp, qp) = false := by
          simp only [List.isEmpty_iff] at hemp
          simp [groupGood, hemp]
        simp only [List.filter_cons, hg]
        exact ih _ _ hl' hb
      · rw [hpos]
        simp only
        split
        · rename_i hg
          have hg' : groupGood items (R pos) (pos, tp, qp) = true := hg
          simp only [List.filter_cons, hg', if_true, List.map_cons]
          split
          · rename_i hlim
            left
            cases limit with
            | none => simp [limitReached] at hlim
            | some lim =>
              have := hb lim rfl
              simp [limitReached] at hlim
              have e : lim = out.length + 1 := by omega
              simp [applyLimit, remLimit, e, List.take]
          · rename_i hlim
            have hb' : Below limit (out ++ [mkSeq pos (R pos)]).length := by
              intro lim h; subst h; simp [limitReached] at hlim ⊢; omega
            rcases ih (k + 1) _ hl' hb' with h | h
            · left; rw [h]
              cases limit with
              | none => simp [applyLimit, remLimit]
              | some lim =>
                have := hb' lim rfl
                simp at this
                have e : lim - out.length = (lim - (out.length + 1)) + 1 := by omega
                simp [applyLimit, remLimit, e]
            · right; exact h
        · rename_i hg
          have hg' : groupGood items (R pos) (pos, tp, qp) = false := by simpa [groupGood] using hg
          simp only [List.filter_cons, hg']
          exact ih _ _ hl' hb

end Uma.Db
