import Verif.Server.HubProof

/-! Proofs about the server's scanning calls: order of the queue, progress, shutdown. -/

namespace Uma.Server
open Uma.Db Uma.Spec

variable {δ σ υ ι : Type} {B : Backend δ σ υ ι} {valid : Record → Prop} {env : Env}

/-! ## Order -/

/-- Permits given back between two gates. -/
def Gate.returned (g g' : Gate) : Nat :=
  (List.range g.cls.length).countP fun j => decide (g.cls[j]? = some .holds) && !decide (g'.cls[j]? = some .holds)

theorem countP_range_le_one {p : Nat → Bool} (n i : Nat) (h : ∀ j, p j = true → j = i) : (List.range n).countP p ≤ 1 := by
  rw [List.countP_eq_length_filter]
  have hn : ((List.range n).filter p).Nodup := List.nodup_range.filter _
  have ha : ∀ j ∈ (List.range n).filter p, j = i := fun j hj => h j (List.mem_filter.mp hj).2
  generalize (List.range n).filter p = l at hn ha
  match l, hn, ha with
  | [], _, _ => simp
  | [a], _, _ => simp
  | a :: b :: l, hn, ha =>
    have h1 := ha a (by simp)
    have h2 := ha b (by simp)
    rw [h1, h2] at hn
    simp at hn

theorem countP_range_zero {p : Nat → Bool} (n : Nat) (h : ∀ j, p j = false) : (List.range n).countP p = 0 := by
  rw [List.countP_eq_zero]; intro j _; simp [h j]

theorem returned_set (g : Gate) (f : Nat) (q : List Nat) (i : Nat) (c c0 : Cls) (hi : g.cls[i]? = some c0)
    (h : c0 = .holds → c = .holds) : g.returned ⟨f, q, g.cls.set i c⟩ = 0 := by
  apply countP_range_zero
  intro j
  simp only [List.getElem?_set]
  by_cases hij : i = j
  · subst hij
    have hl := (List.getElem?_eq_some_iff.mp hi).1
    simp only [if_true, hl, hi, Option.some.injEq]
    by_cases hc : c0 = .holds
    · simp [hc, h hc]
    · simp [hc]
  · simp only [if_neg hij]
    cases decide (g.cls[j]? = some .holds) <;> rfl

theorem erase_split {l r : List Nat} {i j : Nat} (hn : (l ++ i :: r).Nodup) (hm : i ∈ (l ++ i :: r).erase j) :
    ∃ l' r', (l ++ i :: r).erase j = l' ++ i :: r' ∧ l'.Sublist l := by
  have hji : i ≠ j := by
    rintro rfl
    exact hn.not_mem_erase hm
  rw [List.erase_append]
  split
  · exact ⟨l.erase j, r, rfl, List.erase_sublist⟩
  · rw [List.erase_cons_tail (by simpa using hji)]
    exact ⟨l, r.erase j, rfl, List.Sublist.refl _⟩

theorem gate_order {n : Nat} {g g' : Gate} (hg : GOk n g) (hs : GStep g g') {l r : List Nat} {i : Nat}
    (hq : g.queue = l ++ i :: r) (hi : i ∈ g'.queue) :
    ∃ l' r', g'.queue = l' ++ i :: r' ∧ l'.Sublist l ∧ l'.length + g.returned g' ≤ l.length := by
  cases hs with
  | same =>
    refine ⟨l, r, hq, List.Sublist.refl _, ?_⟩
    have : g.returned g = 0 := countP_range_zero _ (fun j => by cases decide (g.cls[j]? = some .holds) <;> rfl)
    omega
  | join c hc =>
    refine ⟨l, r, hq, List.Sublist.refl _, ?_⟩
    have : g.returned { g with cls := g.cls ++ [c] } = 0 := by
      apply countP_range_zero
      intro j
      simp only [List.getElem?_append]
      split
      · cases decide (g.cls[j]? = some .holds) <;> rfl
      · rename_i hl
        rw [List.getElem?_eq_none (by omega)]; rfl
    omega
  | take j hj hf =>
    have := hg.idle hf
    rw [hq] at this
    simp at this
  | wait j hj hf =>
    refine ⟨l, r ++ [j], by simp [hq], List.Sublist.refl _, ?_⟩
    have := returned_set g g.free (g.queue ++ [j]) j .asks .idle hj (by simp)
    exact Nat.le_of_eq (by rw [this]; rfl)
  | leave j hj =>
    have hn := hg.nodup
    rw [hq] at hn
    simp only [hq] at hi
    obtain ⟨l', r', h1, h2⟩ := erase_split hn hi
    refine ⟨l', r', by simp only [hq]; exact h1, h2, ?_⟩
    have := returned_set g g.free (g.queue.erase j) j .idle .asks hj (by simp)
    rw [this]
    exact h2.length_le
  | give j hj =>
    have hle : g.returned (Gate.release { g with cls := g.cls.set j .idle }) ≤ 1 := by
      apply countP_range_le_one _ j
      intro k hk
      apply Decidable.byContradiction
      intro hkj
      simp only [Bool.and_eq_true, decide_eq_true_eq, Bool.not_eq_true', decide_eq_false_iff_not] at hk
      apply hk.2
      simp only [Gate.release, hq]
      cases l with
      | nil =>
        simp only [List.nil_append, List.getElem?_modify, List.getElem?_set, if_neg (Ne.symm hkj), hk.1]
        split <;> rfl
      | cons a l =>
        simp only [List.cons_append, List.getElem?_modify, List.getElem?_set, if_neg (Ne.symm hkj), hk.1]
        split <;> rfl
    have hn := hg.nodup
    cases l with
    | nil =>
      exfalso
      simp only [Gate.release, hq, List.nil_append] at hi
      rw [hq] at hn
      simp only [List.nil_append, List.nodup_cons] at hn
      exact hn.1 hi
    | cons a l =>
      refine ⟨l, r, by simp only [Gate.release, hq, List.cons_append], List.sublist_cons_self _ _, ?_⟩
      simp only [List.length_cons]
      omega

/-! ## Sums over the tasks -/

def Hub.total (r : Task → Nat) (h : Hub δ) : Nat := (h.tasks.map r).sum

theorem sum_set (l : List Nat) (i : Nat) (a b : Nat) (h : l[i]? = some a) : (l.set i b).sum + a = l.sum + b := by
  induction l generalizing i with
  | nil => simp at h
  | cons x l ih =>
    cases i with
    | zero => simp at h; subst h; simp only [List.set_cons_zero, List.sum_cons]; omega
    | succ i =>
      simp only [List.getElem?_cons_succ] at h
      have := ih i h
      simp only [List.set_cons_succ, List.sum_cons]; omega

theorem total_put (r : Task → Nat) (h : Hub δ) {i : Nat} {t : Task} (t' : Task) (hi : h.tasks[i]? = some t) :
    (h.put i t').total r + r t = h.total r + r t' := by
  simp only [Hub.total, Hub.put, List.map_set]
  exact sum_set _ _ _ _ (by simp [hi])

theorem total_release (r : Task → Nat) (h : Hub δ) (hr : ∀ t, t.place = .asking → r { t with place := .holding } ≤ r t)
    (ha : ∀ i ∈ h.queue, ∀ t, h.tasks[i]? = some t → t.place = .asking) : h.release.total r ≤ h.total r := by
  unfold Hub.release
  cases hq : h.queue with
  | nil => exact Nat.le_refl _
  | cons i q =>
    simp only [Hub.total]
    cases hi : h.tasks[i]? with
    | none =>
      have : h.tasks.modify i (fun t => { t with place := .holding }) = h.tasks := by
        apply List.ext_getElem?
        intro j
        rw [List.getElem?_modify]
        split
        · rename_i hij; subst hij; rw [hi]; rfl
        · cases h.tasks[j]? <;> rfl
      rw [this]; exact Nat.le_refl _
    | some t =>
      have : h.tasks.modify i (fun t => { t with place := .holding }) = h.tasks.set i { t with place := .holding } := by
        apply List.ext_getElem?
        intro j
        rw [List.getElem?_modify, List.getElem?_set]
        split
        · rename_i hij; subst hij
          rw [hi, if_pos (List.getElem?_eq_some_iff.mp hi).1]; rfl
        · cases h.tasks[j]? <;> rfl
      rw [this, List.map_set]
      have h1 := sum_set (h.tasks.map r) i (r t) (r { t with place := .holding }) (by simp [hi])
      have h2 := hr t (ha i (by rw [hq]; simp) t hi)
      omega

theorem total_put_release {n : Nat} (r : Task → Nat) {h : Hub δ} (hg : GOk n h.gate)
    (hr : ∀ t, t.place = .asking → r { t with place := .holding } ≤ r t) {i : Nat} {t : Task} (t' : Task)
    (hi : h.tasks[i]? = some t) (hp : t.place.cls = .holds) :
    (h.put i t').release.total r + r t ≤ h.total r + r t' := by
  have hni : i ∉ h.queue := by
    intro hm; rw [queue_asking hg hm hi] at hp; cases hp
  have h1 := total_release r (h.put i t') hr (by
    intro k hk u hku
    have hki : k ≠ i := by rintro rfl; exact hni hk
    simp only [Hub.put, List.getElem?_set, if_neg (Ne.symm hki)] at hku
    exact queue_asking hg hk hku)
  have h2 := total_put r h t' hi
  omega

theorem total_modify (r : Task → Nat) (l : List Task) (i : Nat) (f : Task → Task) (hf : ∀ t, r (f t) = r t) :
    ((l.modify i f).map r).sum = (l.map r).sum := by rw [map_modify_same _ _ _ _ hf]

/-! ## Progress of those that wait for permits -/

/-- Steps still to be made before the permit comes back. -/
def Task.owes (t : Task) : Nat :=
  match t.place with
  | .asking => 4
  | .holding => 3
  | .pending => 2
  | .running | .lost => 1
  | _ => 0

theorem owes_granted (t : Task) (h : t.place = .asking) : ({ t with place := .holding } : Task).owes ≤ t.owes := by
  simp [Task.owes, h]

theorem pool_total {n : Nat} {h h' : Hub δ} (hg : GOk n h.gate) {i : Nat} {c : Cancel} (hs : h.poolStep B env i c = some h') :
    h'.total Task.owes < h.total Task.owes := by
  unfold Hub.poolStep at hs
  split at hs
  · cases hs
  · rename_i t hi
    split at hs
    · rename_i hp
      cases hs
      have := total_put Task.owes h { t with place := .running } hi
      simp only [Task.owes, hp] at this ⊢
      omega
    · rename_i hp
      cases hs
      have := total_put_release Task.owes hg owes_granted
        { t with place := .found (t.job.scan B env h.db (if t.gone || h.stop then c else Cancel.never)) } hi (by rw [hp]; rfl)
      have h1 : t.owes = 1 := by simp [Task.owes, hp]
      rw [h1] at this
      simp only [Task.owes] at this ⊢
      omega
    · rename_i hp
      cases hs
      have := total_put_release Task.owes hg owes_granted { t with place := .done } hi (by rw [hp]; rfl)
      have h1 : t.owes = 1 := by simp [Task.owes, hp]
      rw [h1] at this
      simp only [Task.owes] at this ⊢
      omega
    · cases hs

theorem holding_total {n : Nat} {h h' : Hub δ} (hg : GOk n h.gate) {i : Nat} {quit : Bool} {t : Task}
    (hi : h.tasks[i]? = some t) (hp : t.place = .holding) (hs : h.taskStep i quit = some h') :
    h'.total Task.owes < h.total Task.owes := by
  unfold Hub.taskStep at hs
  simp only [hi, hp] at hs
  have h3 : t.owes = 3 := by simp [Task.owes, hp]
  split at hs
  · split at hs
    · cases hs
      have := total_put_release Task.owes hg owes_granted { t with place := .done } hi (by rw [hp]; rfl)
      rw [h3] at this
      simp only [Task.owes] at this ⊢
      omega
    · cases hs
      have := total_put Task.owes h { t with place := .pending } hi
      rw [h3] at this
      simp only [Task.owes] at this ⊢
      omega
  · cases hs
    have := total_put Task.owes h { t with place := .pending, seen := h.version } hi
    rw [h3] at this
    simp only [Task.owes] at this ⊢
    omega
  · cases hs
    have := total_put Task.owes h { t with place := .pending } hi
    rw [h3] at this
    simp only [Task.owes] at this ⊢
    omega

/-- Whoever holds a permit can go on. -/
theorem holder_moves {h : Hub δ} {i : Nat} {t : Task} (hi : h.tasks[i]? = some t) (hp : t.place.cls = .holds) :
    (t.place = .holding ∧ (h.taskStep i false).isSome) ∨ ∀ c, (h.poolStep B env i c).isSome := by
  cases hpl : t.place with
  | holding =>
    left
    refine ⟨rfl, ?_⟩
    simp only [Hub.taskStep, hi, hpl, Bool.false_and]
    split <;> first | rfl | (split <;> first | rfl | contradiction)
  | pending => right; intro c; simp [Hub.poolStep, hi, hpl]
  | running => right; intro c; simp [Hub.poolStep, hi, hpl]
  | lost => right; intro c; simp [Hub.poolStep, hi, hpl]
  | _ => rw [hpl] at hp; cases hp

/-! ## Shutdown -/

/-- Steps still possible after shutdown was broadcast. -/
def Task.rank (t : Task) : Nat :=
  match t.place with
  | .top => match t.job with
    | .track _ => 9
    | _ => 2
  | .asking => 8
  | .holding => 7
  | .pending => 6
  | .running => 5
  | .found _ => 4
  | .sending _ (some (.track _)) => 10
  | .sending _ _ => 3
  | .waiting => match t.job with
    | .track _ => 10
    | _ => 3
  | .lost => 1
  | .done => 0

theorem rank_le (t : Task) : t.rank ≤ 10 := by
  unfold Task.rank
  split <;> (try split) <;> omega

theorem rank_granted (t : Task) (h : t.place = .asking) : ({ t with place := .holding } : Task).rank ≤ t.rank := by
  simp [Task.rank, h]

theorem rank_settle (t : Task) (f : Found) : (t.settle f).rank ≤ 3 := by
  unfold Task.settle
  split
  · split
    · split
      · simp [Task.rank]
      · rename_i a st m st' _
        cases st' <;> simp [Task.rank]
    · split
      · simp [Task.rank]
      · simp [Task.rank]
      · split
        · rename_i hj _ _ _ _ _
          simp [Task.rank, hj]
        · rename_i last _
          by_cases hl : last.position = u64Max <;> simp [Task.rank, hl]
    · simp [Task.rank]
  · simp [Task.rank]

theorem rank_put {h : Hub δ} {i : Nat} {t t' : Task} (hi : h.tasks[i]? = some t) (hr : t'.rank < t.rank) :
    (h.put i t').total Task.rank < h.total Task.rank := by
  have := total_put Task.rank h t' hi
  omega

theorem rank_put_release {n : Nat} {h : Hub δ} (hg : GOk n h.gate) {i : Nat} {t t' : Task} (hi : h.tasks[i]? = some t)
    (hp : t.place.cls = .holds) (hr : t'.rank < t.rank) : (h.put i t').release.total Task.rank < h.total Task.rank := by
  have := total_put_release Task.rank hg rank_granted t' hi hp
  omega

theorem rank_acquire {h : Hub δ} {i : Nat} {t : Task} (hi : h.tasks[i]? = some t) (hr : 8 < t.rank) :
    (h.acquire i t).total Task.rank < h.total Task.rank := by
  unfold Hub.acquire
  split
  · exact rank_put (t' := { t with place := .holding }) hi (by show 7 < t.rank; omega)
  · exact rank_put (t' := { t with place := .asking }) hi (by show 8 < t.rank; omega)

theorem taskStep_rank {n : Nat} {h h' : Hub δ} (hg : GOk n h.gate) (hstop : h.stop = true) {i : Nat} {quit : Bool}
    (hs : h.taskStep i quit = some h') : h'.total Task.rank < h.total Task.rank := by
  unfold Hub.taskStep at hs
  split at hs
  · cases hs
  · rename_i t hi
    simp only at hs
    cases hp : t.place with
    | top =>
      simp only [hp] at hs
      split at hs
      · rename_i a st hj
        rw [if_pos (by simp [hstop])] at hs
        cases hs; exact rank_put hi (by simp [Task.rank, hp, hj])
      · rename_i hj
        rw [if_pos (by simp [hstop])] at hs
        cases hs; exact rank_put hi (by simp [Task.rank, hp, hj])
      · rename_i hj
        cases hs; exact rank_acquire hi (by simp [Task.rank, hp, hj])
    | asking =>
      simp only [hp] at hs
      split at hs
      · split at hs
        · cases hs
          exact rank_put (t' := { t with place := .done }) hi (by simp [Task.rank, hp])
        · cases hs
      · cases hs
    | holding =>
      simp only [hp] at hs
      have hc : t.place.cls = .holds := by rw [hp]; rfl
      split at hs
      · split at hs
        · cases hs; exact rank_put_release hg hi hc (by simp [Task.rank, hp])
        · cases hs; exact rank_put hi (by simp [Task.rank, hp])
      · cases hs; exact rank_put hi (by simp [Task.rank, hp])
      · cases hs; exact rank_put hi (by simp [Task.rank, hp])
    | pending =>
      simp only [hp] at hs
      have hc : t.place.cls = .holds := by rw [hp]; rfl
      split at hs
      · split at hs
        · cases hs; exact rank_put_release hg hi hc (by simp [Task.rank, hp])
        · cases hs; exact rank_put hi (by simp [Task.rank, hp])
      · cases hs
    | running =>
      simp only [hp] at hs
      split at hs
      · cases hs; exact rank_put hi (by simp [Task.rank, hp])
      · cases hs
    | found f =>
      simp only [hp] at hs
      split at hs
      · cases hs; exact rank_put hi (by simp [Task.rank, hp])
      · cases hs
        refine rank_put hi ?_
        have := rank_settle t f
        have h4 : t.rank = 4 := by simp [Task.rank, hp]
        omega
    | sending m next =>
      simp only [hp] at hs
      split at hs
      · cases hs
        refine rank_put hi ?_
        have : 0 < t.rank := by simp only [Task.rank, hp]; split <;> first | omega | simp_all
        show 0 < t.rank
        exact this
      · split at hs
        · split at hs
          · cases hs; exact rank_put hi (by simp [Task.rank, hp])
          · rename_i job
            cases hs
            refine rank_put hi ?_
            cases job <;> simp [Task.rank, hp]
        · cases hs
    | waiting =>
      simp only [hp] at hs
      split at hs
      · cases hs
        refine rank_put hi ?_
        cases hj : t.job <;> simp [Task.rank, hp, hj]
      · cases hs
    | lost => simp only [hp] at hs; cases hs
    | done => simp only [hp] at hs; cases hs

theorem poolStep_rank {n : Nat} {h h' : Hub δ} (hg : GOk n h.gate) {i : Nat} {c : Cancel}
    (hs : h.poolStep B env i c = some h') : h'.total Task.rank < h.total Task.rank := by
  unfold Hub.poolStep at hs
  split at hs
  · cases hs
  · rename_i t hi
    split at hs
    · rename_i hp
      cases hs; exact rank_put hi (by simp [Task.rank, hp])
    · rename_i hp
      cases hs
      exact rank_put_release hg hi (by rw [hp]; rfl) (by simp [Task.rank, hp])
    · rename_i hp
      cases hs
      exact rank_put_release hg hi (by rw [hp]; rfl) (by simp [Task.rank, hp])
    · cases hs

/-- After shutdown a task that is stuck for good is one whose client does not take its messages. -/
theorem stuck_after_stop {n : Nat} (hn : 0 < n) {h : Hub δ} (hg : GOk n h.gate) (hstop : h.stop = true)
    (hst : ∀ i quit, h.taskStep i quit = none) (hsp : ∀ i c, h.poolStep B env i c = none)
    {i : Nat} {t : Task} (hi : h.tasks[i]? = some t) :
    t.place = .done ∨ (∃ m next, t.place = .sending m next) ∧ t.gone = false ∧ 2048 ≤ t.queued := by
  have hno : ∀ (j : Nat) (u : Task), h.tasks[j]? = some u → u.place.cls ≠ .holds := by
    intro j u hj hc
    rcases holder_moves (B := B) (env := env) hj hc with ⟨_, h2⟩ | h2
    · rw [hst j false] at h2; cases h2
    · have := h2 Cancel.never; rw [hsp j] at this; cases this
  have hall : ∀ (j : Nat) (u : Task), h.tasks[j]? = some u → u.place ≠ .asking := by
    intro j u hj hu
    have hq : j ∈ h.queue := (hg.asks j).mpr (by simp [Hub.gate, hj, hu, Place.cls])
    have hf : h.free = 0 := by
      rcases Nat.eq_zero_or_pos h.free with h0 | h0
      · exact h0
      · have := hg.idle h0
        have : h.queue = [] := this
        rw [this] at hq; cases hq
    have hs := hg.sum
    have hpos : 0 < h.gate.cls.countP (· = .holds) := by
      have : h.gate.free = h.free := rfl
      omega
    obtain ⟨c, hc, hc'⟩ := List.countP_pos_iff.mp hpos
    simp at hc'
    subst hc'
    obtain ⟨k, hk⟩ := List.getElem?_of_mem hc
    simp only [Hub.gate, List.getElem?_map] at hk
    cases hku : h.tasks[k]? with
    | none => rw [hku] at hk; cases hk
    | some u' =>
      rw [hku] at hk
      simp at hk
      exact hno k u' hku hk
  have h1 := hno i t hi
  have h2 := hall i t hi
  have h3 := hst i false
  unfold Hub.taskStep at h3
  simp only [hi, Bool.false_and] at h3
  cases hp : t.place with
  | top =>
    exfalso
    simp only [hp] at h3
    split at h3
    · rw [if_pos (by simp [hstop])] at h3; cases h3
    · rw [if_pos (by simp [hstop])] at h3; cases h3
    · cases h3
  | asking => exact absurd hp h2
  | holding => exact absurd (by rw [hp]; rfl) h1
  | pending => exact absurd (by rw [hp]; rfl) h1
  | running => exact absurd (by rw [hp]; rfl) h1
  | lost => exact absurd (by rw [hp]; rfl) h1
  | found f => simp [hp] at h3
  | sending m next =>
    right
    refine ⟨⟨m, next, rfl⟩, ?_⟩
    simp only [hp] at h3
    split at h3
    · cases h3
    · rename_i hg'
      split at h3
      · split at h3 <;> cases h3
      · rename_i hq
        exact ⟨by simpa using hg', by omega⟩
  | waiting => simp [hp, hstop] at h3
  | done => exact Or.inl rfl

end Uma.Server
