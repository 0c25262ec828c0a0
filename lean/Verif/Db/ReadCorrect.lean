import Verif.Db.ReadProof

/-! `readConditional` returns exactly what the specification says. -/

set_option linter.unusedSimpArgs false

namespace Uma.Db
open Uma.Spec

theorem mkSeq_eq_toSeq (p : Nat × Record) : mkSeq p.1 p.2 = toSeq p := rfl

theorem read_eq (log : Log) (q : Query) (st : Option Nat) (b : Bool) (limit : Option Nat)
    (m : Record → Bool) (hm : ∀ r, m r = true ↔ Matches q r.event) :
    Spec.read log q st b limit =
      applyLimit limit (seqOf ((let sel := (numberFrom 1 log).filter (fun p => decide (InRange st b p.1))
        if b then sel.reverse else sel).filter (fun p => m p.2))) := by
  have key : (sequenced log).filter
      (fun e => decide (InRange st b e.position) && decide (Matches q e.event)) =
      seqOf (((numberFrom 1 log).filter (fun p => decide (InRange st b p.1))).filter (fun p => m p.2)) := by
    unfold sequenced seqOf
    rw [List.filter_map, List.filter_filter]
    congr 1
    apply List.filter_congr
    intro p _
    have : m p.2 = decide (Matches q p.2.event) := by
      rw [Bool.eq_iff_iff, hm, decide_eq_true_iff]
    rw [this, Bool.and_comm]
    rfl
  simp only [Spec.read, key]
  cases b
  · rfl
  · simp only [if_true, seqOf, List.filter_reverse, List.map_reverse]

theorem recordAt_exists {log : Log} {p : Nat} {r : Record} (h : (p, r) ∈ numberFrom 1 log) :
    (log[p - 1]?).getD default = r := by
  rw [(mem_numberFrom.mp h).2]; rfl

theorem mem_numberFrom_unique {α} {l : List α} {n p : Nat} {a b : α} (h : (p, a) ∈ numberFrom n l)
    (h' : (p, b) ∈ numberFrom n l) : a = b := by
  have := (mem_numberFrom.mp h).2
  rw [(mem_numberFrom.mp h').2] at this
  exact (Option.some.inj this).symm

/-- Strict order of results in the read direction. -/
def dirLt (b : Bool) (x y : SeqEvent) : Prop := before b x.position y.position = true

theorem dirLt_irr (b : Bool) (x : SeqEvent) : ¬ dirLt b x x := by cases b <;> simp [dirLt, before]

theorem dirLt_asym (b : Bool) (x y : SeqEvent) : dirLt b x y → ¬ dirLt b y x := by
  cases b <;> simp [dirLt, before] <;> omega

theorem sequenced_pairwise (log : Log) :
    (sequenced log).Pairwise (fun x y => x.position < y.position) := by
  unfold sequenced
  rw [List.pairwise_map]
  exact numberFrom_pairwise 1 log

theorem tagRead_eq (H : String → TagHash)
    (ord : List (String × List Nat) → List (String × List Nat)) (hord : ∀ l, (ord l).Perm l)
    (s : Snap) (log : Log) (hr : Refines H s log) (q : Query) (st : Option Nat) (b : Bool)
    (hne : q.items ≠ []) (htags : ∀ it ∈ q.items, it.tags ≠ []) :
    let iters := (ord (tagQiis q.items)).map fun (tag, qs) =>
      (s.tagScan (H tag) st b).map fun p => (p, tag, qs)
    let gs := groupByPos (kmerge b iters) none [] []
    let R := fun p => (log[p - 1]?).getD default
    (∀ g ∈ gs, s.lookup g.1 = .ok (R g.1)) ∧
    (gs.filter (fun g => groupGood q.items (R g.1) g)).map (fun g => mkSeq g.1 (R g.1)) =
      Spec.read log q st b none := by
  intro iters gs R
  have hL : ∀ x : TagItem, x ∈ kmerge b iters ↔
      (x.2.1, x.2.2) ∈ tagQiis q.items ∧ x.1 ∈ s.tagScan (H x.2.1) st b := by
    rintro ⟨p, t, qs⟩
    rw [mem_kmerge]
    simp only [iters, List.mem_map]
    constructor
    · rintro ⟨l, ⟨⟨t', qs'⟩, h1, rfl⟩, h2⟩
      obtain ⟨p', hp', e⟩ := List.mem_map.mp h2
      simp only [Prod.mk.injEq] at e
      obtain ⟨rfl, rfl, rfl⟩ := e
      exact ⟨(hord _).mem_iff.mp h1, hp'⟩
    · rintro ⟨h1, h2⟩
      exact ⟨_, ⟨(t, qs), (hord _).mem_iff.mpr h1, rfl⟩, List.mem_map.mpr ⟨p, h2, rfl⟩⟩
  have hLord : ordered b (kmerge b iters) := by
    apply kmerge_ordered
    intro l hl
    simp only [iters, List.mem_map] at hl
    obtain ⟨⟨t, qs⟩, _, rfl⟩ := hl
    unfold ordered
    rw [List.pairwise_map]
    exact hr.tagOrd _ _ _
  obtain ⟨g1, g2, g3⟩ := groupByPos_spec b _ hLord
  have hval : ∀ g ∈ gs, (g.1, R g.1) ∈ numberFrom 1 log ∧ InRange st b g.1 := by
    intro g hg
    obtain ⟨⟨x, hx, e⟩, _, _⟩ := g2 g hg
    obtain ⟨_, h2⟩ := (hL x).mp hx
    obtain ⟨r, hr1, hr2, _⟩ := (hr.tagMem _ _ _ _).mp h2
    rw [e] at hr1 hr2
    have : R g.1 = r := recordAt_exists hr1
    rw [this]; exact ⟨hr1, hr2⟩
  refine ⟨fun g hg => hr.lookup _ _ (hval g hg).1, ?_⟩
  apply eq_of_pairwise (r := dirLt b) (dirLt_irr b) (dirLt_asym b)
  · rw [List.pairwise_map]
    exact List.Pairwise.filter _ g1
  · simp only [Spec.read, applyLimit]
    have := (sequenced_pairwise log).filter
      (fun e => decide (InRange st b e.position) && decide (Matches q e.event))
    cases b
    · exact this.imp (fun h => by simpa [dirLt, before] using h)
    · simp only [if_true, List.pairwise_reverse]
      exact this.imp (fun h => by simpa [dirLt, before] using h)
  · intro e
    have hspec : e ∈ Spec.read log q st b none ↔
        ∃ p r, (p, r) ∈ numberFrom 1 log ∧ e = mkSeq p r ∧ InRange st b p ∧ Matches q r.event := by
      have : e ∈ Spec.read log q st b none ↔ e ∈ (sequenced log).filter
          (fun e => decide (InRange st b e.position) && decide (Matches q e.event)) := by
        simp only [Spec.read, applyLimit]; cases b <;> simp
      rw [this]
      simp only [sequenced, List.mem_filter, List.mem_map, Bool.and_eq_true, decide_eq_true_eq]
      constructor
      · rintro ⟨⟨⟨p, r⟩, hp, rfl⟩, h1, h2⟩
        exact ⟨p, r, hp, rfl, h1, h2⟩
      · rintro ⟨p, r, hp, rfl, h1, h2⟩
        exact ⟨⟨(p, r), hp, rfl⟩, h1, h2⟩
    rw [hspec]
    simp only [List.mem_map, List.mem_filter]
    constructor
    · rintro ⟨g, ⟨hg, hgood⟩, rfl⟩
      obtain ⟨h1, h2⟩ := hval g hg
      refine ⟨g.1, R g.1, h1, rfl, h2, Or.inr ?_⟩
      simp only [groupGood, List.any_eq_true, itemOk_iff] at hgood
      obtain ⟨it, hit, hmatch⟩ := hgood
      simp only [matchingQiis, List.mem_filter, List.mem_filterMap] at hit
      obtain ⟨⟨qi, _, hqi⟩, _⟩ := hit
      exact ⟨it, List.mem_of_getElem? hqi, hmatch⟩
    · rintro ⟨p, r, hp, rfl, hrange, hmatch⟩
      rcases hmatch with h | ⟨it, hit, hm⟩
      · exact absurd h hne
      obtain ⟨qi, hqi⟩ := List.mem_iff_getElem?.mp hit
      -- every required tag of the item yields an index entry for this position
      have hent : ∀ t ∈ it.tags, ∃ qs, qi ∈ qs ∧ (p, t, qs) ∈ kmerge b iters := by
        intro t ht
        obtain ⟨e, he, e1, e2⟩ := mem_tagQiis.mpr ⟨it, hqi, ht⟩
        obtain ⟨t', qs⟩ := e
        simp only at e1 e2
        subst e1
        refine ⟨qs, e2, (hL _).mpr ⟨he, ?_⟩⟩
        exact (hr.tagMem _ _ _ _).mpr ⟨r, hp, hrange, t', hm.2 t' ht, rfl⟩
      have hR : R p = r := recordAt_exists hp
      obtain ⟨t0, ht0⟩ := List.exists_mem_of_ne_nil _ (htags it hit)
      obtain ⟨qs0, hqs0, hx0⟩ := hent t0 ht0
      obtain ⟨g, hg, hgp⟩ := g3 _ hx0
      simp only at hgp
      refine ⟨g, ⟨hg, ?_⟩, by rw [hgp, hR]⟩
      rw [hgp, hR]
      obtain ⟨_, j2, j3⟩ := g2 g hg
      simp only [groupGood, List.any_eq_true, itemOk_iff]
      refine ⟨it, ?_, hm⟩
      simp only [matchingQiis, List.mem_filter, List.mem_filterMap]
      refine ⟨⟨qi, (j3 qi).mpr ⟨_, hx0, hgp.symm, hqs0⟩, hqi⟩, ?_⟩
      simp only [List.all_eq_true, List.contains_iff_mem]
      intro t ht
      obtain ⟨qs, _, hx⟩ := hent t ht
      exact (j2 t).mpr ⟨_, hx, hgp.symm, rfl⟩

theorem readConditional_correct (H : String → TagHash)
    (ord : List (String × List Nat) → List (String × List Nat)) (hord : ∀ l, (ord l).Perm l)
    (s : Snap) (log : Log) (hr : Refines H s log)
    (q : Query) (start : Option Nat) (backwards : Bool) (limit : Option Nat) (force : Bool) (c : Cancel) :
    readConditional H ord s q start backwards limit force c
        = .ok (Spec.read log q start backwards limit) ∨
      (readConditional H ord s q start backwards limit force c = .error .cancelledByUser ∧
        ∃ j, c j = true) := by
  unfold readConditional
  split
  · rename_i h0; subst h0; left; simp [Spec.read, applyLimit]
  rename_i h0
  have hbelow : Below limit ([] : List SeqEvent).length := by
    intro lim h; subst h; simp at h0 ⊢; omega
  have hrem : remLimit limit ([] : List SeqEvent).length = limit := by
    cases limit <;> simp [remLimit]
  split
  · rename_i hemp
    have hq : q.items = [] := by simpa using hemp
    have hbatch : 0 < limit.getD scanBatchSize := by
      cases limit with
      | none => decide
      | some n => simp at h0 ⊢; omega
    rw [read_eq log q start backwards limit (fun _ => true) (by intro r; simp [Matches, hq]), hr.scan]
    have := scanLoop_spec (fun _ => true) _ limit c hbatch _ 0 (s.scan start backwards).1 []
      (Nat.le_refl _) hbelow
    rw [hrem, hr.scan] at this
    simpa only [List.nil_append] using this
  rename_i hemp
  have hne : q.items ≠ [] := by simpa using hemp
  split
  · rw [read_eq log q start backwards limit (matchesItem q.items)
      (by intro r; rw [matchesItem_iff]; simp [Matches, hne]), hr.scan]
    have := scanLoop_spec (matchesItem q.items) _ limit c (by decide : 0 < scanBatchSize) _ 0
      (s.scan start backwards).1 [] (Nat.le_refl _) hbelow
    rw [hrem, hr.scan] at this
    simpa only [List.nil_append] using this
  · rename_i hf
    simp only [Bool.or_eq_true, not_or, Bool.not_eq_true, Bool.not_eq_false', List.all_eq_true] at hf
    obtain ⟨hl, hs⟩ := tagRead_eq H ord hord s log hr q start backwards hne
      (by intro it hit; have := hf.1 it hit; simpa using this)
    have := tagLoop_spec s q.items limit c (fun p => (log[p - 1]?).getD default) _ 0 [] hl hbelow
    rw [hrem, hs] at this
    have e : Spec.read log q start backwards limit =
        applyLimit limit (Spec.read log q start backwards none) := by
      simp [Spec.read, applyLimit]
    rw [e]
    simpa using this

end Uma.Db
