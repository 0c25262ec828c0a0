import Verif.Server.Hub
import Verif.Server.SubProof

/-! Proofs about the server's scanning calls side by side. -/

namespace Uma.Server
open Uma.Db Uma.Spec

variable {δ σ υ ι : Type} {B : Backend δ σ υ ι} {valid : Record → Prop} {env : Env}

/-! ## The semaphore by itself -/

inductive Cls | idle | asks | holds
deriving DecidableEq

def Place.cls : Place → Cls
  | .asking => .asks
  | .holding | .pending | .running | .lost => .holds
  | .top | .found _ | .sending _ _ | .waiting | .done => .idle

structure Gate where
  free : Nat
  queue : List Nat
  cls : List Cls

def Gate.release (g : Gate) : Gate :=
  match g.queue with
  | [] => { g with free := g.free + 1 }
  | i :: q => { g with queue := q, cls := g.cls.modify i fun _ => .holds }

def Hub.gate (h : Hub δ) : Gate := ⟨h.free, h.queue, h.tasks.map (·.place.cls)⟩

inductive GStep : Gate → Gate → Prop
  | same {g} : GStep g g
  | join {g} (c) : c = Cls.idle → GStep g { g with cls := g.cls ++ [c] }
  | take {g} (i) : g.cls[i]? = some .idle → 0 < g.free → GStep g { g with free := g.free - 1, cls := g.cls.set i .holds }
  | wait {g} (i) : g.cls[i]? = some .idle → g.free = 0 → GStep g { g with queue := g.queue ++ [i], cls := g.cls.set i .asks }
  | give {g} (i) : g.cls[i]? = some .holds → GStep g (Gate.release { g with cls := g.cls.set i .idle })
  | leave {g} (i) : g.cls[i]? = some .asks → GStep g { g with queue := g.queue.erase i, cls := g.cls.set i .idle }

theorem map_modify_same {α β} (f : α → β) (g : α → α) (l : List α) (i : Nat) (h : ∀ a, f (g a) = f a) :
    (l.modify i g).map f = l.map f := by
  apply List.ext_getElem?
  intro j
  simp only [List.getElem?_map, List.getElem?_modify]
  split <;> cases l[j]? <;> simp [h]

theorem map_modify_const {α β} (f : α → β) (g : α → α) (b : β) (l : List α) (i : Nat) (h : ∀ a, f (g a) = b) :
    (l.modify i g).map f = (l.map f).modify i fun _ => b := by
  apply List.ext_getElem?
  intro j
  simp only [List.getElem?_map, List.getElem?_modify]
  split <;> cases l[j]? <;> simp [h]

theorem set_same {α} (l : List α) (i : Nat) (a : α) (h : l[i]? = some a) : l.set i a = l := by
  apply List.ext_getElem?
  intro j
  rw [List.getElem?_set]
  split
  · rename_i hij; subst hij
    have := (List.getElem?_eq_some_iff.mp h).1
    rw [if_pos this, h]
  · rfl

theorem release_gate (h : Hub δ) : h.release.gate = h.gate.release := by
  unfold Hub.release Gate.release Hub.gate
  cases hq : h.queue with
  | nil => rfl
  | cons i q =>
    simp only
    rw [map_modify_const _ _ Cls.holds]
    intro a; rfl

theorem put_gate (h : Hub δ) (i : Nat) (t : Task) :
    (h.put i t).gate = { h.gate with cls := h.gate.cls.set i t.place.cls } := by
  simp [Hub.put, Hub.gate, List.map_set]

theorem put_same {h : Hub δ} {i : Nat} {t t' : Task} (hi : h.tasks[i]? = some t) (hc : t'.place.cls = t.place.cls) :
    GStep h.gate (h.put i t').gate := by
  rw [put_gate, set_same _ _ _ (by simp [Hub.gate, hi, hc])]
  exact .same

theorem put_give {h : Hub δ} {i : Nat} {t t' : Task} (hi : h.tasks[i]? = some t) (hc : t.place.cls = .holds)
    (hc' : t'.place.cls = .idle) : GStep h.gate (h.put i t').release.gate := by
  rw [release_gate, put_gate, hc']
  exact .give i (by simp [Hub.gate, hi, hc])

theorem acquire_gate {h : Hub δ} {i : Nat} {t : Task} (hi : h.tasks[i]? = some t) (hc : t.place.cls = .idle) :
    GStep h.gate (h.acquire i t).gate := by
  unfold Hub.acquire
  have hg : h.gate.cls[i]? = some .idle := by simp [Hub.gate, hi, hc]
  split
  · rename_i hf
    have := GStep.take (g := h.gate) i hg hf
    simpa [Hub.put, Hub.gate, List.map_set, Place.cls] using this
  · rename_i hf
    have := GStep.wait (g := h.gate) i hg (by have : h.gate.free = h.free := rfl; omega)
    simpa [Hub.put, Hub.gate, List.map_set, Place.cls] using this

theorem settle_cls (t : Task) (f : Found) : (t.settle f).place.cls = .idle := by
  unfold Task.settle
  split
  · split
    · split <;> rfl
    · split
      · rfl
      · rfl
      · split <;> rfl
    · rfl
  · rfl

theorem taskStep_gate {h h' : Hub δ} {i : Nat} {quit : Bool} (hs : h.taskStep i quit = some h') : GStep h.gate h'.gate := by
  unfold Hub.taskStep at hs
  split at hs
  · cases hs
  · rename_i t hi
    simp only at hs
    cases hp : t.place with
    | top =>
      simp only [hp] at hs
      have hc : t.place.cls = .idle := by rw [hp]; rfl
      split at hs
      · split at hs
        · cases hs; exact put_same hi hc.symm
        · split at hs
          · cases hs; exact put_same hi hc.symm
          · cases hs; exact acquire_gate hi hc
      · split at hs
        · cases hs; exact put_same hi hc.symm
        · cases hs; exact acquire_gate hi hc
      · cases hs; exact acquire_gate hi hc
    | asking =>
      simp only [hp] at hs
      split at hs
      · split at hs
        · cases hs
          have := GStep.leave (g := h.gate) i (by simp [Hub.gate, hi, hp, Place.cls])
          simpa [Hub.put, Hub.gate, List.map_set, Place.cls] using this
        · cases hs
      · cases hs
    | holding =>
      simp only [hp] at hs
      have hc : t.place.cls = .holds := by rw [hp]; rfl
      split at hs
      · split at hs
        · cases hs; exact put_give hi hc rfl
        · cases hs; exact put_same hi hc.symm
      · cases hs; exact put_same hi hc.symm
      · cases hs; exact put_same hi hc.symm
    | pending =>
      simp only [hp] at hs
      have hc : t.place.cls = .holds := by rw [hp]; rfl
      split at hs
      · split at hs
        · cases hs; exact put_give hi hc rfl
        · cases hs; exact put_same hi hc.symm
      · cases hs
    | running =>
      simp only [hp] at hs
      split at hs
      · cases hs; exact put_same hi (by rw [hp]; rfl)
      · cases hs
    | found f =>
      simp only [hp] at hs
      split at hs
      · cases hs; exact put_same hi (by rw [hp]; rfl)
      · cases hs; exact put_same hi (by rw [settle_cls, hp]; rfl)
    | sending m next =>
      simp only [hp] at hs
      split at hs
      · cases hs; exact put_same hi (by rw [hp]; rfl)
      · split at hs
        · split at hs <;> (cases hs; exact put_same hi (by rw [hp]; rfl))
        · cases hs
    | waiting =>
      simp only [hp] at hs
      split at hs
      · cases hs; exact put_same hi (by rw [hp]; rfl)
      · cases hs
    | lost => simp only [hp] at hs; cases hs
    | done => simp only [hp] at hs; cases hs

theorem poolStep_gate {h h' : Hub δ} {i : Nat} {c : Cancel} (hs : h.poolStep B env i c = some h') : GStep h.gate h'.gate := by
  unfold Hub.poolStep at hs
  split at hs
  · cases hs
  · rename_i t hi
    split at hs
    · rename_i hp
      cases hs; exact put_same hi (by rw [hp]; rfl)
    · rename_i hp
      cases hs; exact put_give hi (by rw [hp]; rfl) rfl
    · rename_i hp
      cases hs; exact put_give hi (by rw [hp]; rfl) rfl
    · cases hs

theorem step?_gate {h h' : Hub δ} {m : Move δ} (hs : h.step? B env m = some h') : GStep h.gate h'.gate := by
  cases m with
  | arrive v =>
    cases hs
    have := GStep.join (g := h.gate) v.task.place.cls
      (by cases v <;> simp only [Visit.task] <;> first | rfl | (split <;> rfl))
    simpa [Hub.gate] using this
  | leave i =>
    cases hs
    have : (Hub.gate { h with tasks := h.tasks.modify i fun t => { t with gone := true } }) = h.gate := by
      simp only [Hub.gate]; rw [map_modify_same]; intro a; rfl
    rw [this]; exact .same
  | recv i =>
    cases hs
    have : (Hub.gate { h with tasks := h.tasks.modify i fun t => { t with queued := t.queued - 1 } }) = h.gate := by
      simp only [Hub.gate]; rw [map_modify_same]; intro a; rfl
    rw [this]; exact .same
  | commit d =>
    simp only [Hub.step?] at hs
    split at hs <;> cases hs
    exact .same
  | announce =>
    simp only [Hub.step?] at hs
    split at hs <;> cases hs
    exact .same
  | shutdown => cases hs; exact .same
  | task i quit => exact taskStep_gate hs
  | pool i c => exact poolStep_gate hs

theorem step_gate (h : Hub δ) (m : Move δ) : GStep h.gate (h.step B env m).gate := by
  unfold Hub.step
  cases hs : h.step? B env m with
  | none => exact .same
  | some h' => exact step?_gate hs

/-! ## Its invariant -/

structure GOk (n : Nat) (g : Gate) : Prop where
  sum : g.free + g.cls.countP (· = .holds) = n
  nodup : g.queue.Nodup
  asks : ∀ i, i ∈ g.queue ↔ g.cls[i]? = some .asks
  idle : 0 < g.free → g.queue = []

theorem modify_eq_set {α} (l : List α) (i : Nat) (a : α) : (l.modify i fun _ => a) = l.set i a := by
  apply List.ext_getElem?
  intro j
  rw [List.getElem?_modify, List.getElem?_set]
  by_cases h : i = j
  · subst h
    by_cases hl : i < l.length
    · simp [hl]
    · simp [hl]
  · simp [h]

theorem countP_set_holds {l : List Cls} {i : Nat} {c c' : Cls} (h : l[i]? = some c) :
    (l.set i c').countP (· = .holds) + (if c = .holds then 1 else 0) =
      l.countP (· = .holds) + (if c' = .holds then 1 else 0) := by
  obtain ⟨hl, hv⟩ := List.getElem?_eq_some_iff.mp h
  rw [List.countP_set hl, hv]
  have hpos : c = .holds → 0 < l.countP (· = .holds) := by
    intro hc
    exact List.countP_pos_iff.mpr ⟨l[i], List.getElem_mem _, by simp [hv, hc]⟩
  cases c <;> cases c' <;> simp_all <;> omega

theorem set_asks {l : List Cls} {i : Nat} {c : Cls} (h : l[i]?.isSome) (j : Nat) :
    (l.set i c)[j]? = some .asks ↔ if i = j then c = .asks else l[j]? = some .asks := by
  rw [List.getElem?_set]
  split
  · have : i < l.length := by
      cases h' : l[i]? with
      | none => simp [h'] at h
      | some a => exact (List.getElem?_eq_some_iff.mp h').1
    simp [this]
  · rfl

theorem GOk.release {n : Nat} {g : Gate} (h : GOk n g) : GOk (n + 1) g.release := by
  unfold Gate.release
  cases hq : g.queue with
  | nil =>
    refine ⟨by have := h.sum; simp only; omega, by simp, ?_, fun _ => rfl⟩
    have := h.asks
    rw [hq] at this
    exact this
  | cons i q =>
    have hi : g.cls[i]? = some .asks := (h.asks i).mp (by rw [hq]; simp)
    have hf : g.free = 0 := by
      rcases Nat.eq_zero_or_pos g.free with h0 | h0
      · exact h0
      · have := h.idle h0; rw [hq] at this; cases this
    have hnd := h.nodup
    rw [hq, List.nodup_cons] at hnd
    refine ⟨?_, hnd.2, ?_, ?_⟩
    · have := countP_set_holds (c' := .holds) hi
      have := h.sum
      simp only [modify_eq_set]
      simp at *
      omega
    · intro j
      have := h.asks j
      rw [hq] at this
      simp only [modify_eq_set]
      rw [set_asks (by simp [hi])]
      split
      · rename_i hij; subst hij; simp [hnd.1]
      · rename_i hij
        rw [← this]; simp [Ne.symm hij]
    · simp only; omega

theorem GOk.step {n : Nat} {g g' : Gate} (h : GOk n g) (hs : GStep g g') : GOk n g' := by
  cases hs with
  | same => exact h
  | join c hc =>
    subst hc
    refine ⟨by have := h.sum; simpa [List.countP_append] using this, h.nodup, ?_, h.idle⟩
    intro i
    rw [h.asks i]
    simp only [List.getElem?_append]
    split
    · rfl
    · rename_i hl
      rw [List.getElem?_eq_none (by omega)]
      cases hj : i - g.cls.length with
      | zero => simp
      | succ k => simp
  | take i hi hf =>
    have hq := h.idle hf
    refine ⟨?_, h.nodup, ?_, fun _ => hq⟩
    · have := countP_set_holds (c' := .holds) hi
      have := h.sum
      simp at *; omega
    · intro j
      simp only
      rw [set_asks (by simp [hi]), h.asks j]
      split
      · rename_i hij; subst hij; simp [hi]
      · rfl
  | wait i hi hf =>
    have hni : i ∉ g.queue := by intro hm; have := (h.asks i).mp hm; rw [hi] at this; cases this
    refine ⟨?_, ?_, ?_, by simp only; omega⟩
    · have := countP_set_holds (c' := .asks) hi
      have := h.sum
      simp at *; omega
    · exact List.nodup_append.mpr ⟨h.nodup, by simp, by intro a ha b hb; simp at hb; subst hb; rintro rfl; exact hni ha⟩
    · intro j
      simp only
      rw [set_asks (by simp [hi])]
      split
      · rename_i hij; subst hij; simp
      · rename_i hij; rw [← h.asks j]; simp [Ne.symm hij]
  | give i hi =>
    have hpos : 0 < g.cls.countP (· = .holds) :=
      List.countP_pos_iff.mpr ⟨.holds, List.mem_of_getElem? hi, by simp⟩
    have h' : GOk (n - 1) { g with cls := g.cls.set i .idle } := by
      refine ⟨?_, h.nodup, ?_, h.idle⟩
      · have := countP_set_holds (c' := .idle) hi
        have := h.sum
        simp at *; omega
      · intro j
        simp only
        rw [set_asks (by simp [hi]), h.asks j]
        split
        · rename_i hij; subst hij; simp [hi]
        · rfl
    have := h'.release
    have hn : n - 1 + 1 = n := by have := h.sum; omega
    rwa [hn] at this
  | leave i hi =>
    refine ⟨?_, h.nodup.erase _, ?_, ?_⟩
    · have := countP_set_holds (c' := .idle) hi
      have := h.sum
      simp at *; omega
    · intro j
      simp only
      rw [set_asks (by simp [hi])]
      split
      · rename_i hij; subst hij; simp [h.nodup.not_mem_erase]
      · rename_i hij; rw [← h.asks j, List.mem_erase_of_ne (Ne.symm hij)]
    · intro hf
      simp only [h.idle hf, List.erase_nil]

theorem run_snoc (h : Hub δ) (ms : List (Move δ)) (m : Move δ) :
    h.run B env (ms ++ [m]) = (h.run B env ms).step B env m := by simp [Hub.run]

theorem run_append (h : Hub δ) (ms ms' : List (Move δ)) :
    h.run B env (ms ++ ms') = (h.run B env ms).run B env ms' := by simp [Hub.run]

theorem run_cons (h : Hub δ) (m : Move δ) (ms : List (Move δ)) :
    h.run B env (m :: ms) = (h.step B env m).run B env ms := by simp [Hub.run]

theorem gok_run {n : Nat} {h : Hub δ} (hg : GOk n h.gate) (ms : List (Move δ)) : GOk n (h.run B env ms).gate := by
  induction ms generalizing h with
  | nil => exact hg
  | cons m ms ih => rw [run_cons]; exact ih (hg.step (step_gate h m))

theorem gok_init (d : δ) (n : Nat) : GOk n (Hub.init d n).gate :=
  ⟨rfl, List.nodup_nil, by simp [Hub.init, Hub.gate], fun _ => rfl⟩

/-! ## How one task changes in one step -/

/-- The shared part of the hub that tasks look at. -/
structure Board (δ : Type) where
  db : δ
  pending : Bool
  version : Nat
  stop : Bool

def Hub.board (h : Hub δ) : Board δ := ⟨h.db, h.pending, h.version, h.stop⟩

/-- The client has disconnected, or the task is that of a stream and the server is shutting down. -/
def Leaving (t : Task) (stop : Bool) : Prop := (t.gone || stop) = true ∧ ∀ s, t.job = .track s → t.gone = true

/-- There is something left to read. -/
def Unspent (t : Task) : Prop := ∀ a st, t.job = .read a st → ¬ (a.limit.isSome = true ∧ st.remaining = 0)

/-- How a task may change; `true`: by its own step or that of its closure. -/
inductive Change (B : Backend δ σ υ ι) (env : Env) (b : Board δ) : Bool → Task → Task → Prop
  | same {o t} : Change B env b o t t
  | gone {t} : Change B env b false t { t with gone := true }
  | recv {t} : Change B env b false t { t with queued := t.queued - 1 }
  | granted {o t} : t.place = .asking → Change B env b o t { t with place := .holding }
  | quit {o t} : Leaving t b.stop → (∀ m next, t.place = .sending m next → t.gone = true) →
      (t.place = .asking → ∃ s, t.job = .track s) → Change B env b o t { t with place := .done }
  | spent {o t a st} : t.place = .top → t.job = .read a st → a.limit.isSome = true → st.remaining = 0 →
      Change B env b o t { t with place := .done }
  | ask {o t} : t.place = .top → Unspent t → Change B env b o t { t with place := .asking }
  | take {o t} : t.place = .top → Unspent t → Change B env b o t { t with place := .holding }
  | arm {o t q n x} : t.place = .holding → t.job = .sub q n x →
      Change B env b o t { t with place := .pending, seen := b.version }
  | spawn {o t} : t.place = .holding → (∀ q n x, t.job ≠ .sub q n x) → Change B env b o t { t with place := .pending }
  | lose {o t} : Leaving t b.stop → t.place = .pending ∨ t.place = .running → Change B env b o t { t with place := .lost }
  | start {o t} : t.place = .pending → Change B env b o t { t with place := .running }
  | drop {o t} : t.place = .lost → Change B env b o t { t with place := .done }
  | scan {o t} (c : Cancel) : t.place = .running → ((t.gone || b.stop) = false → c = Cancel.never) →
      Change B env b o t { t with place := .found (t.job.scan B env b.db c) }
  | settle {o t f} : t.place = .found f → Change B env b o t (t.settle f)
  | sendLast {o t m} : t.place = .sending m none → t.queued < 2048 →
      Change B env b o t { t with place := .done, sent := t.sent ++ [m], queued := t.queued + 1 }
  | send {o t m job} : t.place = .sending m (some job) → t.queued < 2048 →
      Change B env b o t { t with job := job, place := .top, sent := t.sent ++ [m], queued := t.queued + 1 }
  | wake {o t} : t.place = .waiting → b.version ≠ t.seen ∨ (t.gone || b.stop) = true →
      Change B env b o t { t with place := .top }

theorem quits_away {t : Task} {stop : Bool} (h : t.quits stop = true) : Leaving t stop := by
  unfold Task.quits at h
  split at h
  · exact ⟨by simp [h], fun _ _ => h⟩
  · rename_i hn
    exact ⟨h, fun s hs => absurd hs (hn s)⟩

theorem put_board (h : Hub δ) (i : Nat) (t : Task) : (h.put i t).board = h.board := rfl

theorem release_board (h : Hub δ) : h.release.board = h.board := by
  unfold Hub.release
  split <;> rfl

theorem put_change {h : Hub δ} {i : Nat} {t t' : Task} (hi : h.tasks[i]? = some t)
    (hc : Change B env h.board true t t') : ∀ (j : Nat) (u' : Task), (h.put i t').tasks[j]? = some u' →
    ∃ u : Task, h.tasks[j]? = some u ∧ Change B env h.board true u u' := by
  intro j u' hu
  simp only [Hub.put, List.getElem?_set] at hu
  split at hu
  · rename_i hij; subst hij
    split at hu
    · cases hu; exact ⟨t, hi, hc⟩
    · cases hu
  · exact ⟨u', hu, .same⟩

theorem release_change {h : Hub δ} (ha : ∀ i ∈ h.queue, ∀ t, h.tasks[i]? = some t → t.place = .asking) :
    ∀ (j : Nat) (u' : Task), h.release.tasks[j]? = some u' →
    ∃ u : Task, h.tasks[j]? = some u ∧ (u' = u ∨ u.place = .asking ∧ u' = { u with place := .holding }) := by
  intro j u' hu
  unfold Hub.release at hu
  cases hq : h.queue with
  | nil => rw [hq] at hu; exact ⟨u', hu, Or.inl rfl⟩
  | cons i q =>
    simp only [hq, List.getElem?_modify] at hu
    cases hj : h.tasks[j]? with
    | none => simp [hj] at hu
    | some u =>
      simp only [hj, Option.map_eq_map, Option.map_some, Option.some.injEq] at hu
      refine ⟨u, rfl, ?_⟩
      split at hu
      · rename_i hij; subst hij
        exact Or.inr ⟨ha i (by rw [hq]; simp) u hj, hu.symm⟩
      · exact Or.inl hu.symm

theorem queue_asking {n : Nat} {h : Hub δ} (hg : GOk n h.gate) {i : Nat} (hi : i ∈ h.queue) {t : Task}
    (ht : h.tasks[i]? = some t) : t.place = .asking := by
  have := (hg.asks i).mp hi
  simp only [Hub.gate, List.getElem?_map, ht, Option.map_some, Option.some.injEq] at this
  revert this
  cases t.place <;> simp [Place.cls]

theorem put_release_change {n : Nat} {h : Hub δ} (hg : GOk n h.gate) {i : Nat} {t t' : Task} (hi : h.tasks[i]? = some t)
    (hp : t.place.cls = .holds) (hc : Change B env h.board true t t') : ∀ (j : Nat) (u' : Task), (h.put i t').release.tasks[j]? = some u' →
    ∃ u : Task, h.tasks[j]? = some u ∧ Change B env h.board true u u' := by
  intro j u' hu
  have hni : i ∉ h.queue := by
    intro hm; rw [queue_asking hg hm hi] at hp; cases hp
  obtain ⟨u, hu1, hu2⟩ := release_change (h := h.put i t') (by
    intro k hk u hku
    have hki : k ≠ i := by rintro rfl; exact hni hk
    simp only [Hub.put, List.getElem?_set, if_neg (Ne.symm hki)] at hku
    exact queue_asking hg hk hku) j u' hu
  by_cases hij : i = j
  · subst hij
    have : u = t' := by
      simp only [Hub.put, List.getElem?_set, if_true] at hu1
      split at hu1
      · cases hu1; rfl
      · cases hu1
    subst this
    rcases hu2 with rfl | ⟨ha, rfl⟩
    · exact ⟨t, hi, hc⟩
    · exfalso
      have hx : (h.put i u).tasks[i]? = some u := hu1
      /- the task given a permit stands in the queue -/
      have : ({ u with place := .holding } : Task) = u ∨ True := Or.inr trivial
      unfold Hub.release at hu
      cases hq : (h.put i u).queue with
      | nil =>
        rw [hq] at hu
        have hu : (h.put i u).tasks[i]? = some { u with place := .holding } := hu
        rw [hx] at hu
        have := congrArg (fun o : Option Task => o.map (·.place)) hu
        simp [ha] at this
      | cons k q =>
        have hk : k ∈ h.queue := by have : h.queue = k :: q := hq; rw [this]; simp
        have hki : k ≠ i := by rintro rfl; exact hni hk
        simp only [hq, List.getElem?_modify, hx, if_neg hki] at hu
        have := congrArg (fun o : Option Task => o.map (·.place)) hu
        simp [ha] at this
  · simp only [Hub.put, List.getElem?_set, if_neg hij] at hu1
    rcases hu2 with rfl | ⟨ha, rfl⟩
    · exact ⟨u', hu1, .same⟩
    · exact ⟨u, hu1, .granted ha⟩

theorem acquire_change {h : Hub δ} {i : Nat} {t : Task} (hi : h.tasks[i]? = some t) (hp : t.place = .top)
    (hu : Unspent t) :
    ∀ (j : Nat) (u' : Task), (h.acquire i t).tasks[j]? = some u' → ∃ u : Task, h.tasks[j]? = some u ∧ Change B env h.board true u u' := by
  unfold Hub.acquire
  split
  · exact put_change hi (.take hp hu)
  · exact put_change hi (.ask hp hu)

theorem taskStep_change {n : Nat} {h h' : Hub δ} (hg : GOk n h.gate) {i : Nat} {quit : Bool}
    (hs : h.taskStep i quit = some h') : h'.board = h.board ∧ h'.tasks.length = h.tasks.length ∧
    ∀ (j : Nat) (u' : Task), h'.tasks[j]? = some u' → ∃ u : Task, h.tasks[j]? = some u ∧ Change B env h.board true u u' := by
  have hpl : ∀ t', (h.put i t').tasks.length = h.tasks.length := fun t' => by simp [Hub.put]
  have hrl : ∀ t', (h.put i t').release.tasks.length = h.tasks.length := fun t' => by
    unfold Hub.release; split <;> simp [Hub.put]
  have hab : ∀ t', (h.acquire i t').board = h.board := fun t' => by unfold Hub.acquire; split <;> rfl
  have hal : ∀ t', (h.acquire i t').tasks.length = h.tasks.length := fun t' => by
    unfold Hub.acquire; split <;> simp [Hub.put]
  unfold Hub.taskStep at hs
  split at hs
  · cases hs
  · rename_i t hi
    simp only at hs
    have hst : h.board.stop = h.stop := rfl
    have hput : ∀ t', Change B env h.board true t t' → (h.put i t').board = h.board ∧
        (h.put i t').tasks.length = h.tasks.length ∧
        ∀ (j : Nat) (u' : Task), (h.put i t').tasks[j]? = some u' → ∃ u : Task, h.tasks[j]? = some u ∧ Change B env h.board true u u' :=
      fun t' hc => ⟨rfl, hpl t', put_change hi hc⟩
    have hrel : ∀ t', t.place.cls = .holds → Change B env h.board true t t' → (h.put i t').release.board = h.board ∧
        (h.put i t').release.tasks.length = h.tasks.length ∧
        ∀ (j : Nat) (u' : Task), (h.put i t').release.tasks[j]? = some u' → ∃ u : Task, h.tasks[j]? = some u ∧ Change B env h.board true u u' :=
      fun t' hp hc => ⟨release_board _, hrl t', put_release_change hg hi hp hc⟩
    cases hp : t.place with
    | top =>
      simp only [hp] at hs
      split at hs
      · rename_i a st hj
        split at hs
        · rename_i hq
          cases hs; exact hput _ (.quit ⟨hq, by rw [hj]; intro s h; cases h⟩ (by rw [hp]; intro m next h; cases h) (by rw [hp]; intro h; cases h))
        · split at hs
          · rename_i hq
            cases hs; exact hput _ (.spent hp hj hq.1 hq.2)
          · rename_i hq
            cases hs
            refine ⟨hab _, hal _, acquire_change hi hp ?_⟩
            intro a' st' hj'
            rw [hj] at hj'; cases hj'
            exact hq
      · rename_i hj
        split at hs
        · rename_i hq
          cases hs; exact hput _ (.quit ⟨hq, by rw [hj]; intro s h; cases h⟩ (by rw [hp]; intro m next h; cases h) (by rw [hp]; intro h; cases h))
        · cases hs; exact ⟨hab _, hal _, acquire_change hi hp (by intro a st h; rw [hj] at h; cases h)⟩
      · rename_i hj
        cases hs; exact ⟨hab _, hal _, acquire_change hi hp (by intro a st h; rw [hj] at h; cases h)⟩
    | asking =>
      simp only [hp] at hs
      split at hs
      · rename_i s hj
        split at hs
        · rename_i hq
          cases hs
          simp only [Bool.and_eq_true] at hq
          exact hput _ (.quit (quits_away hq.2) (by rw [hp]; intro m next h; cases h) (fun _ => ⟨s, hj⟩))
        · cases hs
      · cases hs
    | holding =>
      simp only [hp] at hs
      split at hs
      · rename_i hj
        split at hs
        · rename_i hq
          simp only [Bool.and_eq_true] at hq
          cases hs; exact hrel _ (by rw [hp]; rfl) (.quit (quits_away hq.2) (by rw [hp]; intro m next h; cases h) (by rw [hp]; intro h; cases h))
        · cases hs; exact hput _ (.spawn hp (by rw [hj]; simp))
      · rename_i hj
        cases hs; exact hput _ (.arm hp hj)
      · rename_i hj
        cases hs; exact hput _ (.spawn hp (by rw [hj]; simp))
    | pending =>
      simp only [hp] at hs
      split at hs
      · rename_i hq
        simp only [Bool.and_eq_true] at hq
        split at hs
        · cases hs; exact hrel _ (by rw [hp]; rfl) (.quit (quits_away hq.2) (by rw [hp]; intro m next h; cases h) (by rw [hp]; intro h; cases h))
        · cases hs; exact hput _ (.lose (quits_away hq.2) (Or.inl hp))
      · cases hs
    | running =>
      simp only [hp] at hs
      split at hs
      · rename_i hq
        simp only [Bool.and_eq_true] at hq
        cases hs; exact hput _ (.lose (quits_away hq.2) (Or.inr hp))
      · cases hs
    | found f =>
      simp only [hp] at hs
      split at hs
      · rename_i hq
        simp only [Bool.and_eq_true] at hq
        cases hs; exact hput _ (.quit (quits_away hq.2) (by rw [hp]; intro m next h; cases h) (by rw [hp]; intro h; cases h))
      · cases hs; exact hput _ (.settle hp)
    | sending m next =>
      simp only [hp] at hs
      split at hs
      · rename_i hq
        cases hs; exact hput _ (.quit ⟨by simp [hq], fun _ _ => hq⟩ (fun _ _ _ => hq) (by rw [hp]; intro h; cases h))
      · split at hs
        · rename_i hq
          split at hs
          · cases hs; exact hput _ (.sendLast hp hq)
          · cases hs; exact hput _ (.send hp hq)
        · cases hs
    | waiting =>
      simp only [hp] at hs
      split at hs
      · rename_i hq
        cases hs
        refine hput _ (.wake hp ?_)
        rcases hq with hq | hq | hq
        · exact Or.inl hq
        · exact Or.inr (by simp [hq])
        · exact Or.inr (by simp [hst, hq])
      · cases hs
    | lost => simp only [hp] at hs; cases hs
    | done => simp only [hp] at hs; cases hs

theorem poolStep_change {n : Nat} {h h' : Hub δ} (hg : GOk n h.gate) {i : Nat} {c : Cancel}
    (hs : h.poolStep B env i c = some h') : h'.board = h.board ∧ h'.tasks.length = h.tasks.length ∧
    ∀ (j : Nat) (u' : Task), h'.tasks[j]? = some u' → ∃ u : Task, h.tasks[j]? = some u ∧ Change B env h.board true u u' := by
  have hrl : ∀ t', (h.put i t').release.tasks.length = h.tasks.length := fun t' => by
    unfold Hub.release; split <;> simp [Hub.put]
  unfold Hub.poolStep at hs
  split at hs
  · cases hs
  · rename_i t hi
    split at hs
    · rename_i hp
      cases hs; exact ⟨rfl, by simp [Hub.put], put_change hi (.start hp)⟩
    · rename_i hp
      cases hs
      refine ⟨release_board _, hrl _, put_release_change hg hi (by rw [hp]; rfl) (.scan _ hp ?_)⟩
      intro hq
      have hq : (t.gone || h.stop) = false := hq
      rw [hq]; rfl
    · rename_i hp
      cases hs
      exact ⟨release_board _, hrl _, put_release_change hg hi (by rw [hp]; rfl) (.drop hp)⟩
    · cases hs

/-- What a move does to the shared part. -/
def Board.after (b : Board δ) : Move δ → Board δ
  | .commit d => if b.pending then b else { b with db := d, pending := true }
  | .announce => if b.pending then { b with pending := false, version := b.version + 1 } else b
  | .shutdown => { b with stop := true }
  | _ => b

theorem modify_change {h : Hub δ} {i : Nat} {f : Task → Task} (hf : ∀ t, Change B env h.board false t (f t)) :
    ∀ (j : Nat) (u' : Task), (h.tasks.modify i f)[j]? = some u' → ∃ u : Task, h.tasks[j]? = some u ∧ Change B env h.board false u u' := by
  intro j u' hu
  rw [List.getElem?_modify] at hu
  cases hj : h.tasks[j]? with
  | none => simp [hj] at hu
  | some u =>
    simp only [hj, Option.map_eq_map, Option.map_some, Option.some.injEq] at hu
    refine ⟨u, rfl, ?_⟩
    split at hu
    · rw [← hu]; exact hf u
    · have : u = u' := hu
      rw [this]; exact .same

/-- One step seen from its tasks: the tasks change under the board before it, one may arrive. -/
theorem step_change {n : Nat} {h : Hub δ} (hg : GOk n h.gate) (m : Move δ) :
    (h.step B env m).board = h.board.after m ∧
    (h.step B env m).tasks.length = h.tasks.length + (match m with | .arrive _ => 1 | _ => 0) ∧
    ∀ (j : Nat) (u' : Task), (h.step B env m).tasks[j]? = some u' →
      (∃ (o : Bool) (u : Task), h.tasks[j]? = some u ∧ Change B env h.board o u u') ∨ (j = h.tasks.length ∧ ∃ v, m = .arrive v ∧ u' = v.task) := by
  unfold Hub.step
  cases m with
  | arrive v =>
    refine ⟨rfl, by simp [Hub.step?], ?_⟩
    intro j u' hu
    simp only [Hub.step?, Option.getD_some, List.getElem?_append] at hu
    split at hu
    · exact Or.inl ⟨true, u', hu, .same⟩
    · rename_i hl
      right
      cases hk : j - h.tasks.length with
      | zero =>
        rw [hk] at hu
        simp at hu
        exact ⟨by omega, v, rfl, hu.symm⟩
      | succ k => rw [hk] at hu; simp at hu
  | leave i =>
    exact ⟨rfl, by simp [Hub.step?], fun j u' hu => Or.inl ⟨_, modify_change (fun t => .gone) j u' hu⟩⟩
  | recv i =>
    exact ⟨rfl, by simp [Hub.step?], fun j u' hu => Or.inl ⟨_, modify_change (fun t => .recv) j u' hu⟩⟩
  | commit d =>
    simp only [Hub.step?, Board.after]
    by_cases hp : h.pending = true
    · rw [if_pos hp, if_pos (show h.board.pending = true from hp)]
      exact ⟨rfl, rfl, fun j u' hu => Or.inl ⟨true, u', hu, .same⟩⟩
    · rw [if_neg hp, if_neg (show ¬ h.board.pending = true from hp)]
      exact ⟨rfl, rfl, fun j u' hu => Or.inl ⟨true, u', hu, .same⟩⟩
  | announce =>
    simp only [Hub.step?, Board.after]
    by_cases hp : h.pending = true
    · rw [if_pos hp, if_pos (show h.board.pending = true from hp)]
      exact ⟨rfl, rfl, fun j u' hu => Or.inl ⟨true, u', hu, .same⟩⟩
    · rw [if_neg hp, if_neg (show ¬ h.board.pending = true from hp)]
      exact ⟨rfl, rfl, fun j u' hu => Or.inl ⟨true, u', hu, .same⟩⟩
  | shutdown => exact ⟨rfl, rfl, fun j u' hu => Or.inl ⟨true, u', hu, .same⟩⟩
  | task i quit =>
    simp only [Hub.step?, Board.after]
    cases hs : h.taskStep i quit with
    | none => exact ⟨rfl, rfl, fun j u' hu => Or.inl ⟨true, u', hu, .same⟩⟩
    | some h' =>
      obtain ⟨h1, h2, h3⟩ := taskStep_change (B := B) (env := env) hg hs
      exact ⟨h1, h2, fun j u' hu => Or.inl ⟨_, h3 j u' hu⟩⟩
  | pool i c =>
    simp only [Hub.step?, Board.after]
    cases hs : h.poolStep B env i c with
    | none => exact ⟨rfl, rfl, fun j u' hu => Or.inl ⟨true, u', hu, .same⟩⟩
    | some h' =>
      obtain ⟨h1, h2, h3⟩ := poolStep_change (B := B) (env := env) hg hs
      exact ⟨h1, h2, fun j u' hu => Or.inl ⟨_, h3 j u' hu⟩⟩

end Uma.Server
