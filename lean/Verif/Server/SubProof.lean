import Verif.Server.StreamProof

/-! Proofs about subscriptions. -/

namespace Uma.Server
open Uma.Db Uma.Spec

variable {δ σ υ ι : Type} {B : Backend δ σ υ ι} {valid : Record → Prop}

/-- A possible course of events for writer and subscriber: `History L log p cs log' p' quiet` leads from committed log
`log` (with an unannounced commit if `p`) to `log'`, `p'`.  Every commit extends the log and is announced before the
next one.  `quiet`: the cancel flag is never raised. -/
inductive History {H : String → TagHash} (L : Lawful B H valid) : Log → Bool → List (Choice δ) → Log → Bool → Bool → Prop
  | nil {log p} : History L log p [] log p true
  | commit {log d s' cs log' p' qt} : L.RepD d s' → log <+: s'.log → s'.log.length < u64Max →
      History L s'.log true cs log' p' qt → History L log false (.commit d :: cs) log' p' qt
  | announce {log cs log' p' qt} : History L log false cs log' p' qt → History L log true (.announce :: cs) log' p' qt
  | sub {log p c cs log' p' qt} : History L log p cs log' p' qt → (∀ j, c j = false) →
      History L log p (.sub c :: cs) log' p' qt
  | subCancel {log p c cs log' p' qt} : History L log p cs log' p' qt → History L log p (.sub c :: cs) log' p' false

/-- Cursor and delivered events agree. -/
def Cursor (start0 : Option Nat) (w : World δ) : Prop :=
  (w.delivered = [] ∧ w.next = start0) ∨
  ∃ e, w.delivered.getLast? = some e ∧ w.next = some (advance false e.position)

/-- The snapshot `snap` taken after clearing notification `seen` is current unless a notification is due. -/
def Fresh (w : World δ) (log snap : Log) (seen : Nat) : Prop :=
  snap <+: log ∧ seen ≤ w.version ∧ (snap = log ∨ w.pending = true ∨ seen < w.version)

structure SubInv {H : String → TagHash} (L : Lawful B H valid) (q : Query) (start0 : Option Nat) (batch : Nat)
    (w : World δ) (log : Log) (p quiet : Bool) : Prop where
  rep : ∃ s, L.RepD w.db s ∧ s.log = log
  small : log.length < u64Max
  pend : w.pending = p
  prefx : w.delivered <+: todo log q false start0
  cursor : w.phase ≠ .ended → Cursor start0 w
  phase : match w.phase with
    | .top => True
    | .armed seen => seen ≤ w.version
    | .got seen events => ∃ snap, Fresh w log snap seen ∧ events = (todo snap q false w.next).take batch
    | .waiting seen => ∃ snap, Fresh w log snap seen ∧ todo snap q false w.next = []
    | .ended => quiet = false

theorem cursor_todo {log : Log} {q : Query} {start0 : Option Nat} {w : World δ} (hl : log.length < u64Max)
    (hp : w.delivered <+: todo log q false start0) (hc : Cursor start0 w) :
    todo log q false start0 = w.delivered ++ todo log q false w.next := by
  rcases hc with ⟨h1, h2⟩ | ⟨e, h1, h2⟩
  · rw [h1, h2, List.nil_append]
  · obtain ⟨t, ht⟩ := hp
    obtain ⟨pre, hpre⟩ := List.getLast?_eq_some_iff.mp h1
    have : todo log q false start0 = pre ++ e :: t := by rw [← ht, hpre]; simp
    rw [h2, todo_advance hl this, this, hpre]; simp

theorem todo_prefix {log log' : Log} (h : log <+: log') (q : Query) (start : Option Nat) :
    todo log q false start <+: todo log' q false start := by
  obtain ⟨ext, h1, _⟩ := todo_grow_fwd h q start
  rw [h1]; exact List.prefix_append _ _

theorem subInv_weaken {H : String → TagHash} {L : Lawful B H valid} {q : Query} {start0 : Option Nat} {batch : Nat}
    {w : World δ} {log : Log} {p qt qt' : Bool} (h : SubInv L q start0 batch w log p qt) (hq : qt = false → qt' = false) :
    SubInv L q start0 batch w log p qt' := by
  refine ⟨h.rep, h.small, h.pend, h.prefx, h.cursor, ?_⟩
  have hph := h.phase
  revert hph
  split <;> first | exact id | exact hq

theorem subInv_step {env : Env} (he : EnvOk env) (L : Lawful B env.H valid) (query : Option Query)
    (start0 : Option Nat) (batch : Nat) (hb : 0 < batch) {w : World δ} {log : Log} {p qt : Bool} (c : Cancel)
    (hc : (∃ j, c j = true) → qt = false)
    (hw : SubInv L (query.getD ⟨[]⟩) start0 batch w log p qt) :
    SubInv L (query.getD ⟨[]⟩) start0 batch ((subStep B env query batch c w).getD w) log p qt := by
  have hph := hw.phase
  unfold subStep
  cases hphase : w.phase with
  | top =>
    simp only [Option.getD_some]
    exact ⟨hw.rep, hw.small, hw.pend, hw.prefx, fun _ => hw.cursor (by simp [hphase]), by simp⟩
  | armed seen =>
    simp only [hphase] at hph
    simp only
    obtain ⟨s, hs, hsl⟩ := hw.rep
    have hcur := hw.cursor (by simp [hphase])
    rcases handlerRead_spec he L hs query w.next false (some batch) c with hr | ⟨hr, hj⟩
    · rw [hr]
      simp only [Option.getD_some]
      refine ⟨hw.rep, hw.small, hw.pend, hw.prefx, fun _ => hcur, ?_⟩
      simp only
      refine ⟨log, ⟨List.prefix_refl _, hph, Or.inl rfl⟩, ?_⟩
      rw [read_eq_todo, hsl]; rfl
    · rw [hr]
      simp only [Option.getD_some]
      exact ⟨hw.rep, hw.small, hw.pend, hw.prefx, by simp, hc hj⟩
  | got seen events =>
    simp only [hphase] at hph
    simp only
    obtain ⟨snap, hf, hev⟩ := hph
    have hcur := hw.cursor (by simp [hphase])
    cases hl : events.getLast? with
    | none =>
      simp only [Option.getD_some]
      refine ⟨hw.rep, hw.small, hw.pend, hw.prefx, fun _ => hcur, ?_⟩
      simp only
      refine ⟨snap, hf, ?_⟩
      have hnil : events = [] := by simpa using hl
      rw [hnil] at hev
      have := congrArg List.length hev
      simp only [List.length_nil, List.length_take] at this
      exact List.eq_nil_of_length_eq_zero (by omega)
    | some last =>
      have hpre : events <+: todo log (query.getD ⟨[]⟩) false w.next := by
        rw [hev]; exact (List.take_prefix _ _).trans (todo_prefix hf.1 _ _)
      have hmem : last ∈ todo log (query.getD ⟨[]⟩) false w.next :=
        hpre.subset (List.mem_of_getLast? hl)
      have hlt : last.position < u64Max := Nat.lt_of_le_of_lt (mem_todo hmem).2.1 hw.small
      simp only [if_neg (Nat.ne_of_lt hlt), Option.getD_some]
      refine ⟨hw.rep, hw.small, hw.pend, ?_, fun _ => ?_, by simp⟩
      · simp only
        rw [cursor_todo hw.small hw.prefx hcur]
        exact (List.prefix_append_right_inj _).mpr hpre
      · right
        refine ⟨last, ?_, rfl⟩
        simp only
        rw [List.getLast?_append, hl]; rfl
  | waiting seen =>
    simp only [hphase] at hph
    simp only
    split
    · exact hw
    · simp only [Option.getD_some]
      exact ⟨hw.rep, hw.small, hw.pend, hw.prefx, fun _ => hw.cursor (by simp [hphase]), by simp⟩
  | ended => exact hw

theorem subInv_run {env : Env} (he : EnvOk env) (L : Lawful B env.H valid) (query : Option Query)
    (start0 : Option Nat) (batch : Nat) (hb : 0 < batch) {log log' : Log} {p p' qt qt0 : Bool} {cs : List (Choice δ)}
    (hh : History L log p cs log' p' qt) :
    ∀ {w : World δ}, SubInv L (query.getD ⟨[]⟩) start0 batch w log p qt0 →
    SubInv L (query.getD ⟨[]⟩) start0 batch (runWorld B env query batch w cs) log' p' (qt0 && qt) := by
  induction hh generalizing qt0 with
  | nil => intro w hw; simpa [runWorld] using hw
  | @commit log d s' cs log' p' qt hd hpre hsm _ ih =>
    intro w hw
    rw [runWorld, List.foldl_cons]
    refine ih (qt0 := qt0) ?_
    have hpd := hw.pend
    simp only [worldStep, hpd, Bool.false_eq_true, if_false]
    refine ⟨⟨s', hd, rfl⟩, hsm, rfl, hw.prefx.trans (todo_prefix hpre _ _), hw.cursor, ?_⟩
    have hph := hw.phase
    revert hph
    simp only
    split
    · exact id
    · exact id
    · rintro ⟨snap, ⟨f1, f2, _⟩, h⟩; exact ⟨snap, ⟨f1.trans hpre, f2, Or.inr (Or.inl rfl)⟩, h⟩
    · rintro ⟨snap, ⟨f1, f2, _⟩, h⟩; exact ⟨snap, ⟨f1.trans hpre, f2, Or.inr (Or.inl rfl)⟩, h⟩
    · exact id
  | @announce log cs log' p' qt _ ih =>
    intro w hw
    rw [runWorld, List.foldl_cons]
    refine ih (qt0 := qt0) ?_
    have hpd := hw.pend
    simp only [worldStep, hpd, if_true]
    refine ⟨hw.rep, hw.small, rfl, hw.prefx, hw.cursor, ?_⟩
    have hph := hw.phase
    revert hph
    simp only
    split
    · exact id
    · intro h; exact Nat.le_succ_of_le h
    · rintro ⟨snap, ⟨f1, f2, _⟩, h⟩
      exact ⟨snap, ⟨f1, by simp only; omega, Or.inr (Or.inr (by simp only; omega))⟩, h⟩
    · rintro ⟨snap, ⟨f1, f2, _⟩, h⟩
      exact ⟨snap, ⟨f1, by simp only; omega, Or.inr (Or.inr (by simp only; omega))⟩, h⟩
    · exact id
  | @sub log p c cs log' p' qt _ hc ih =>
    intro w hw
    rw [runWorld, List.foldl_cons]
    refine ih (qt0 := qt0) ?_
    simp only [worldStep]
    exact subInv_step he L query start0 batch hb c (fun ⟨j, hj⟩ => by rw [hc j] at hj; cases hj) hw
  | @subCancel log p c cs log' p' qt _ ih =>
    intro w hw
    rw [runWorld, List.foldl_cons, Bool.and_false]
    have := ih (qt0 := false) (w := worldStep B env query batch w (.sub c))
      (subInv_step he L query start0 batch hb c (fun _ => rfl) (subInv_weaken hw (fun _ => rfl)))
    simpa [runWorld] using this

theorem subInv_init {env : Env} (L : Lawful B env.H valid) (q : Query) (batch : Nat) {d : δ} {s : Spec.Db}
    (hd : L.RepD d s) (hs : s.log.length < u64Max) (after : Option Nat) (ha : after ≠ some u64Max) (v : Nat) :
    SubInv L q (after.map fun a => min (a + 1) u64Max) batch (subscribeCall d after v) s.log false true := by
  rw [subscribeCall, if_neg ha]
  exact ⟨⟨s, hd, rfl⟩, hs, rfl, List.nil_prefix, fun _ => Or.inl ⟨rfl, rfl⟩, trivial⟩

/-- The events a subscription after `after` owes. -/
theorem todo_after (log : Log) (q : Query) (_hl : log.length < u64Max) (after : Option Nat)
    (ha : ∀ a ∈ after, a < u64Max) :
    todo log q false (after.map fun a => min (a + 1) u64Max) =
      (sequenced log).filter fun e => after.all (fun a => decide (a < e.position)) && decide (Matches q e.event) := by
  unfold todo ordered
  simp only [Bool.false_eq_true, if_false, List.filter_filter]
  apply List.filter_congr
  intro e he
  congr 1
  cases after with
  | none => simp [InRange]; rfl
  | some a =>
    have := ha a rfl
    rw [Bool.eq_iff_iff]
    simp [InRange]; omega

end Uma.Server
