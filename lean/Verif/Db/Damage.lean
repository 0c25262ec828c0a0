import Mathlib.Data.List.Sort
import Verif.Db.ReadProof

/-!
# Reading a snapshot some pages of which cannot be read

`read_page` checks the checksum of every page it reads from the file (mvcc.rs 603-625, page.rs 92-131), so a page damaged
on the disk gives an error.  `Worse s' s`: the snapshot `s'` is `s` with pages missing.
-/

set_option linter.unusedSimpArgs false

namespace Uma.Db
open Uma.Spec

/-- The errors with which unreadable pages are reported. -/
def Lost (e : Err) : Prop := (∃ p, e = .pageNotFound p) ∨ ∃ m, e = .databaseCorrupted m

/-- `x'` is `x`, or reports a missing page. -/
def OrLost {α : Type} (x' x : Except Err α) : Prop := x' = x ∨ ∃ e, x' = .error e ∧ Lost e

theorem OrLost.refl {α : Type} (x : Except Err α) : OrLost x x := .inl rfl

theorem OrLost.ok {α : Type} {x' x : Except Err α} (h : OrLost x' x) {a : α} (ha : x' = .ok a) : x = .ok a := by
  rcases h with h | ⟨e, h, _⟩
  · rw [← h, ha]
  · rw [ha] at h; cases h

/-- Each way of reading `s'` gives what `s` gives or an error; only the tag index gives less without an error. -/
structure Worse (s' s : Snap) : Prop where
  scan : ∀ st b, s'.scan st b = s.scan st b ∨
    ((s'.scan st b).1 <+: (s.scan st b).1 ∧ ∃ e, (s'.scan st b).2 = some e ∧ Lost e)
  lookup : ∀ p, OrLost (s'.lookup p) (s.lookup p)
  tagScan : ∀ h st b, s'.tagScan h st b <+: s.tagScan h st b

theorem nextBatch_worse {c : Cancel} {fin : Option Err} {e : Err} : ∀ (n k : Nat) {l' l : List (Nat × Record)}, l' <+: l →
    nextBatch c (some e) k n l' = .error e ∨
    (∃ e1, nextBatch c (some e) k n l' = .error e1 ∧ nextBatch c fin k n l = .error e1) ∨
    ∃ b r' r k', nextBatch c (some e) k n l' = .ok (b, r', k') ∧ nextBatch c fin k n l = .ok (b, r, k') ∧ r' <+: r := by
  intro n
  induction n with
  | zero =>
    intro k l' l h
    exact .inr (.inr ⟨[], l', l, k, by simp [nextBatch], by simp [nextBatch], h⟩)
  | succ n ih =>
    intro k l' l h
    by_cases hc : c k = true
    · refine .inr (.inl ⟨.cancelledByUser, ?_, ?_⟩)
      · cases l' <;> simp [nextBatch, hc]
      · cases l <;> simp [nextBatch, hc]
    · cases l' with
      | nil => left; simp [nextBatch, hc]
      | cons x l' =>
        obtain ⟨t, rfl⟩ := h
        rw [List.cons_append]
        simp only [nextBatch, hc]
        rcases ih (k + 1) (List.prefix_append l' t) with h | ⟨e1, h1, h2⟩ | ⟨b, r', r, k', h1, h2, h3⟩
        · left; rw [h]; rfl
        · right; left; exact ⟨e1, by rw [h1]; rfl, by rw [h2]; rfl⟩
        · right; right; exact ⟨x :: b, r', r, k', by rw [h1]; rfl, by rw [h2]; rfl, h3⟩

theorem scanLoop_eq (m : Record → Bool) (batch : Nat) (limit : Option Nat) (c : Cancel) (fin : Option Err) (k : Nat)
    (l : List (Nat × Record)) (out : List SeqEvent) :
    scanLoop m batch limit c fin k l out =
      if c k then .error .cancelledByUser
      else
        match nextBatch c fin (k + 1) batch l with
        | .error e => .error e
        | .ok (b, rem', k') =>
          if b = [] then .ok out
          else
            match pushBatch m limit b out with
            | (out', true) => .ok out'
            | (out', false) => scanLoop m batch limit c fin k' rem' out' := by
  rw [scanLoop]
  split
  · rfl
  · split
    · next h => rw [h]
    · next h =>
      rw [h]
      simp only
      split <;> rfl

theorem scanLoop_worse {m : Record → Bool} {batch : Nat} {limit : Option Nat} {c : Cancel} {fin : Option Err} {e : Err}
    (n : Nat) : ∀ {k : Nat} {l' l : List (Nat × Record)} {out : List SeqEvent}, l'.length < n → l' <+: l →
    scanLoop m batch limit c (some e) k l' out = scanLoop m batch limit c fin k l out ∨
      scanLoop m batch limit c (some e) k l' out = .error e := by
  induction n with
  | zero => intro k l' l out hn; omega
  | succ n ih =>
    intro k l' l out hn hp
    rw [scanLoop_eq, scanLoop_eq]
    split
    · left; rfl
    · rcases nextBatch_worse (c := c) (fin := fin) (e := e) batch (k + 1) hp with h | ⟨e1, h1, h2⟩ | ⟨b, r', r, k', h1, h2, h3⟩
      · right; rw [h]
      · left; rw [h1, h2]
      · rw [h1, h2]
        simp only
        by_cases hb : b = []
        · left; rw [if_pos hb, if_pos hb]
        · rw [if_neg hb, if_neg hb]
          have hlen : r'.length < n := by
            have := nextBatch_length h1
            have : 0 < b.length := List.length_pos_iff.mpr hb
            omega
          rcases pushBatch m limit b out with ⟨o, _ | _⟩
          · exact ih hlen h3
          · left; rfl

/-- The query is answered through the tag index, db.rs 588-590. -/
def ByIndex (q : Query) : Prop := q.items ≠ [] ∧ ∀ it ∈ q.items, it.tags ≠ []

instance (q : Query) : Decidable (ByIndex q) := inferInstanceAs (Decidable (_ ∧ _))

/-- A sequential read gives the right answer or an error. -/
theorem readConditional_worse {H : String → TagHash} {ord : List (String × List Nat) → List (String × List Nat)}
    {s' s : Snap} (hw : Worse s' s) {q : Query} {force : Bool} (hq : force = true ∨ ¬ ByIndex q) (start : Option Nat)
    (backwards : Bool) (limit : Option Nat) (c : Cancel) :
    OrLost (readConditional H ord s' q start backwards limit force c)
      (readConditional H ord s q start backwards limit force c) := by
  have key : ∀ (m : Record → Bool) (batch : Nat),
      OrLost (scanLoop m batch limit c (s'.scan start backwards).2 0 (s'.scan start backwards).1 [])
        (scanLoop m batch limit c (s.scan start backwards).2 0 (s.scan start backwards).1 []) := by
    intro m batch
    rcases hw.scan start backwards with h | ⟨hp, e, he, hl⟩
    · rw [h]; exact .inl rfl
    · rw [he]
      rcases scanLoop_worse (m := m) (batch := batch) (limit := limit) (c := c) (fin := (s.scan start backwards).2) (e := e)
        _ (k := 0) (out := []) (Nat.lt_succ_self _) hp with h | h
      · exact .inl h
      · exact .inr ⟨e, h, hl⟩
  unfold readConditional
  split
  · exact .inl rfl
  · split
    · exact key _ _
    · next hne =>
      split
      · exact key _ _
      · next hf =>
        exfalso
        simp only [Bool.or_eq_true, Bool.not_eq_true', not_or] at hf
        rcases hq with hq | hq
        · exact hf.2 hq
        · refine hq ⟨by simpa using hne, ?_⟩
          have := hf.1
          simp only [Bool.not_eq_false, List.all_eq_true, Bool.not_eq_true', List.isEmpty_eq_false_iff] at this
          exact this

/-- What the tag-index loop returns: records looked up at positions of the groups, all matching the query. -/
theorem tagLoop_sound {s : Snap} {items : List QueryItem} {limit : Option Nat} {c : Cancel} :
    ∀ (gs : List Group) {k : Nat} {out out' : List SeqEvent}, tagLoop s items limit c k gs out = .ok out' →
    ∃ l : List (Nat × Record), out' = out ++ seqOf l ∧ (l.map (·.1)).Sublist (gs.map (·.1)) ∧
      ∀ x ∈ l, s.lookup x.1 = .ok x.2 ∧ ∃ it ∈ items, typeOk it x.2 = true ∧ tagsOk it x.2 = true := by
  intro gs
  induction gs with
  | nil => intro k out out' h; cases h; exact ⟨[], by simp [seqOf], by simp, by simp⟩
  | cons g gs ih =>
    obtain ⟨pos, tp, qp⟩ := g
    intro k out out' h
    simp only [tagLoop] at h
    split at h
    · cases h
    · have skip : tagLoop s items limit c (k + 1) gs out = .ok out' →
          ∃ l : List (Nat × Record), out' = out ++ seqOf l ∧
            (l.map (·.1)).Sublist ((((pos, tp, qp) : Group) :: gs).map (·.1)) ∧
            ∀ x ∈ l, s.lookup x.1 = .ok x.2 ∧ ∃ it ∈ items, typeOk it x.2 = true ∧ tagsOk it x.2 = true := by
        intro h
        obtain ⟨l, h1, h2, h3⟩ := ih h
        exact ⟨l, h1, h2.cons _, h3⟩
      split at h
      · exact skip h
      · split at h
        · cases h
        · next r hr =>
          split at h
          · next hm =>
            obtain ⟨it, hit, hok⟩ := List.any_eq_true.mp hm
            have hgood : ∃ it ∈ items, typeOk it r = true ∧ tagsOk it r = true := by
              simp only [matchingQiis, List.mem_filter, List.mem_filterMap] at hit
              obtain ⟨⟨qi, -, hqi⟩, -⟩ := hit
              exact ⟨it, List.mem_of_getElem? hqi, by simpa using hok⟩
            split at h
            · cases h
              exact ⟨[(pos, r)], by simp [seqOf], by simp, by simpa using ⟨hr, hgood⟩⟩
            · obtain ⟨l, h1, h2, h3⟩ := ih h
              refine ⟨(pos, r) :: l, by rw [h1]; simp [seqOf], by simpa using h2, ?_⟩
              intro x hx
              rcases List.mem_cons.mp hx with rfl | hx
              · exact ⟨hr, hgood⟩
              · exact h3 x hx
          · exact skip h

/-- The limit is kept. -/
theorem tagLoop_limit {s : Snap} {items : List QueryItem} {c : Cancel} {n : Nat} :
    ∀ (gs : List Group) {k : Nat} {out out' : List SeqEvent}, tagLoop s items (some n) c k gs out = .ok out' →
    out.length < n → out'.length ≤ n := by
  intro gs
  induction gs with
  | nil => intro k out out' h hn; cases h; omega
  | cons g gs ih =>
    obtain ⟨pos, tp, qp⟩ := g
    intro k out out' h hn
    simp only [tagLoop] at h
    split at h
    · cases h
    split at h
    · exact ih h hn
    split at h
    · cases h
    split at h
    · split at h
      · cases h; simp; omega
      · next hl =>
        refine ih h ?_
        simpa [limitReached] using hl
    · exact ih h hn

theorem sublist_of_ordered {b : Bool} : ∀ {l L : List SeqEvent},
    l.Pairwise (fun x y => before b x.position y.position = true) →
    L.Pairwise (fun x y => before b x.position y.position = true) → (∀ x ∈ l, x ∈ L) → l.Sublist L := by
  intro l L
  induction L generalizing l with
  | nil =>
    intro _ _ h
    cases l with
    | nil => exact .slnil
    | cons x l => exact absurd (h x (by simp)) (by simp)
  | cons y L ih =>
    intro h1 h2 h
    cases l with
    | nil => exact List.nil_sublist _
    | cons x l =>
      have irr : ∀ a, before b a a = true → False := by intro a; cases b <;> simp [before]
      have asym : ∀ a c, before b a c = true → before b c a = true → False := by
        intro a c; cases b <;> simp [before] <;> omega
      rw [List.pairwise_cons] at h1 h2
      rcases List.mem_cons.mp (h x (by simp)) with rfl | hx
      · refine List.Sublist.cons_cons _ (ih h1.2 h2.2 fun z hz => ?_)
        rcases List.mem_cons.mp (h z (by simp [hz])) with rfl | hz'
        · exact (irr _ (h1.1 _ hz)).elim
        · exact hz'
      · refine List.Sublist.cons _ (ih (List.pairwise_cons.mpr h1) h2.2 fun z hz => ?_)
        rcases List.mem_cons.mp (h z hz) with rfl | hz'
        · exfalso
          rcases List.mem_cons.mp hz with rfl | hz
          · exact irr _ (h2.1 _ hx)
          · exact asym _ _ (h1.1 _ hz) (h2.1 _ hx)
        · exact hz'

/-- The positions of the log in reading order. -/
theorem read_ordered (log : Log) (q : Query) (start : Option Nat) (b : Bool) :
    (Spec.read log q start b none).Pairwise (fun x y => before b x.position y.position = true) := by
  have h : ((sequenced log).filter fun e =>
      decide (InRange start b e.position) && decide (Matches q e.event)).Pairwise (fun x y => x.position < y.position) := by
    refine List.Pairwise.filter _ ?_
    exact List.pairwise_map.mpr (numberFrom_pairwise 1 log)
  cases b
  · simpa [Spec.read, applyLimit, before] using h
  · simp only [Spec.read, applyLimit, if_true, before, decide_eq_true_eq]
    exact List.pairwise_reverse.mpr h

/-- Through the index of a damaged snapshot nothing comes that does not belong to the answer, in the right order. -/
theorem readConditional_sound {H : String → TagHash} {ord : List (String × List Nat) → List (String × List Nat)}
    {s' s : Snap} (hw : Worse s' s) {log : Log} (hr : Refines H s log) {q : Query} (hq : ByIndex q) {start : Option Nat}
    {backwards : Bool} {limit : Option Nat} {c : Cancel} {out : List SeqEvent}
    (h : readConditional H ord s' q start backwards limit false c = .ok out) :
    out.Sublist (Spec.read log q start backwards none) ∧ ∀ n, limit = some n → out.length ≤ n := by
  unfold readConditional at h
  split at h
  · next h0 => cases h; exact ⟨List.nil_sublist _, by simp⟩
  next h0 =>
  rw [if_neg (by simpa using hq.1), if_neg (by
    simp only [Bool.or_false, Bool.not_eq_true', Bool.not_eq_false, List.all_eq_true, List.isEmpty_eq_false_iff]
    exact hq.2)] at h
  simp only at h
  set iters := (ord (tagQiis q.items)).map fun x =>
    (s'.tagScan (H x.1) start backwards).map fun p => ((p, x.1, x.2) : TagItem) with hit
  have hmem : ∀ z ∈ kmerge backwards iters, ∃ t, z.1 ∈ s.tagScan (H t) start backwards := by
    intro z hz
    obtain ⟨l, hl, hzl⟩ := mem_kmerge.mp hz
    obtain ⟨⟨t, qs⟩, -, rfl⟩ := List.mem_map.mp hl
    obtain ⟨p, hp, rfl⟩ := List.mem_map.mp hzl
    exact ⟨t, (hw.tagScan _ _ _).subset hp⟩
  have hord : ordered backwards (kmerge backwards iters) := by
    refine kmerge_ordered fun l hl => ?_
    obtain ⟨⟨t, qs⟩, -, rfl⟩ := List.mem_map.mp hl
    unfold ordered
    rw [List.pairwise_map]
    exact (hr.tagOrd (H t) start backwards).sublist (hw.tagScan _ _ _).sublist
  obtain ⟨g1, g2, -⟩ := groupByPos_spec backwards _ hord
  obtain ⟨l, rfl, hsub, hl⟩ := tagLoop_sound _ h
  constructor
  · rw [List.nil_append]
    refine sublist_of_ordered ?_ (read_ordered ..) ?_
    · have : (l.map (·.1)).Pairwise (fun x y => before backwards x y = true) :=
        List.Pairwise.sublist hsub (List.pairwise_map.mpr g1)
      simp only [seqOf]
      rw [List.pairwise_map] at this ⊢
      exact this
    · intro x hx
      obtain ⟨⟨p, r⟩, hp, rfl⟩ := List.mem_map.mp hx
      obtain ⟨hlook, it, hi, h1, h2⟩ := hl _ hp
      have hpos : p ∈ (groupByPos (kmerge backwards iters) none [] []).map (·.1) :=
        hsub.subset (List.mem_map.mpr ⟨_, hp, rfl⟩)
      obtain ⟨g, hg, rfl⟩ := List.mem_map.mp hpos
      obtain ⟨⟨z, hz, hzg⟩, -⟩ := g2 g hg
      obtain ⟨t, ht⟩ := hmem z hz
      rw [hzg] at ht
      obtain ⟨r0, hr0, hin, -⟩ := (hr.tagMem _ _ _ _).mp ht
      have hr' := (hw.lookup g.1).ok hlook
      rw [hr.lookup _ _ hr0] at hr'
      obtain rfl : r0 = r := Except.ok.inj hr'
      have hmatch : Matches q r0.event := .inr ⟨it, hi, itemOk_iff.mp (by rw [h1, h2]; rfl)⟩
      have : toSeq (g.1, r0) ∈ (sequenced log).filter fun e =>
          decide (InRange start backwards e.position) && decide (Matches q e.event) := by
        refine List.mem_filter.mpr ⟨List.mem_map.mpr ⟨_, hr0, rfl⟩, ?_⟩
        simp only [toSeq, Bool.and_eq_true]
        exact ⟨decide_eq_true hin, decide_eq_true hmatch⟩
      show toSeq (g.1, r0) ∈ _
      cases backwards
      · simpa [Spec.read, applyLimit] using this
      · simpa [Spec.read, applyLimit] using this
  · rintro n rfl
    exact tagLoop_limit _ h (by
      rcases Nat.eq_zero_or_pos n with rfl | hn
      · exact absurd rfl h0
      · exact hn)

/-- Through an index that looks empty nothing is found. -/
theorem readConditional_blind {H : String → TagHash} {ord : List (String × List Nat) → List (String × List Nat)} {s : Snap}
    (hs : ∀ h st b, s.tagScan h st b = []) {q : Query} (hq : ByIndex q) (start : Option Nat) (backwards : Bool)
    (limit : Option Nat) (c : Cancel) : readConditional H ord s q start backwards limit false c = .ok [] := by
  unfold readConditional
  split
  · rfl
  · rw [if_neg (by simpa using hq.1), if_neg (by
      simp only [Bool.or_false, Bool.not_eq_true', Bool.not_eq_false, List.all_eq_true, List.isEmpty_eq_false_iff]
      exact hq.2)]
    simp only [hs, List.map_nil]
    have : kmerge backwards ((ord (tagQiis q.items)).map fun _ => ([] : List TagItem)) = [] := by
      generalize ord (tagQiis q.items) = l
      cases hk : kmerge backwards (l.map fun _ => ([] : List TagItem)) with
      | nil => rfl
      | cons z r =>
        obtain ⟨l', hl', hz⟩ := mem_kmerge.mp (hk ▸ List.mem_cons_self : z ∈ kmerge backwards (l.map fun _ => ([] : List TagItem)))
        obtain ⟨_, -, rfl⟩ := List.mem_map.mp hl'
        cases hz
    rw [this]
    rfl

/-- A sequential read looks at the events only. -/
theorem readConditional_scan {H : String → TagHash} {ord : List (String × List Nat) → List (String × List Nat)} {s' s : Snap}
    (hs : s'.scan = s.scan) {q : Query} (hq : ¬ ByIndex q) (start : Option Nat) (backwards : Bool) (limit : Option Nat)
    (c : Cancel) : readConditional H ord s' q start backwards limit false c = readConditional H ord s q start backwards limit false c := by
  unfold readConditional
  rw [hs]
  split
  · rfl
  · split
    · rfl
    · next hne =>
      split
      · rfl
      · next hf =>
        refine absurd ⟨by simpa using hne, ?_⟩ hq
        simpa only [Bool.or_false, Bool.not_eq_true', Bool.not_eq_false, List.all_eq_true, List.isEmpty_eq_false_iff] using hf

/-- A scan that starts with an error ends with it. -/
theorem scanLoop_error (m : Record → Bool) {batch : Nat} (hb : batch ≠ 0) (limit : Option Nat) (e : Err) (k : Nat)
    (out : List SeqEvent) : scanLoop m batch limit Cancel.never (some e) k [] out = .error e := by
  obtain ⟨n, rfl⟩ : ∃ n, batch = n + 1 := ⟨batch - 1, by omega⟩
  rw [scanLoop_eq]
  simp [Cancel.never, nextBatch]

theorem readConditional_error {H : String → TagHash} {ord : List (String × List Nat) → List (String × List Nat)} {s : Snap}
    {q : Query} (hq : ¬ ByIndex q) {start : Option Nat} {backwards : Bool} {e : Err} (hs : s.scan start backwards = ([], some e))
    {limit : Option Nat} (hl : limit ≠ some 0) : readConditional H ord s q start backwards limit false Cancel.never = .error e := by
  unfold readConditional
  rw [if_neg hl, hs]
  split
  · refine scanLoop_error _ ?_ _ _ _ _
    cases limit with
    | none => simp [scanBatchSize]
    | some n => intro h; exact hl (by rw [← h]; rfl)
  · next hne =>
    split
    · exact scanLoop_error _ (by simp [scanBatchSize]) _ _ _ _
    · next hf =>
      refine absurd ⟨by simpa using hne, ?_⟩ hq
      simpa only [Bool.or_false, Bool.not_eq_true', Bool.not_eq_false, List.all_eq_true, List.isEmpty_eq_false_iff] using hf

end Uma.Db
