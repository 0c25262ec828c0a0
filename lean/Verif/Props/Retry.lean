import Verif.Props.History
import Verif.Props.PipelineHistory

/-!
# C74: trying again

A client whose call was not answered, or answered with a failure, does not know whether its append happened, and sends the request again.
-/

namespace Uma.Props
open Uma.Spec Uma.Db Uma.Page Uma.Codec

variable {valid : Record → Prop} [DecidablePred valid]

/-! ## The claim -/

/-- Requests meant to be sent again: conditional, every event carries a uuid of its own and matches the query of the condition. -/
structure Retryable (req : Request) (c : Condition) : Prop where
  condition : req.condition = some c
  some_event : req.events ≠ []
  few : req.events.length < 2 ^ 32
  uuids : ∀ e ∈ req.events, e.uuid.isSome
  distinct : (req.events.map (·.uuid)).Nodup
  fits : ∀ e ∈ req.events, Matches c.failIfEventsMatch e

/-- None of the uuids of the request occurs in these events. -/
def Foreign (req : Request) (evs : List Event) : Prop := ∀ e ∈ evs, e.uuid ∉ req.events.map (·.uuid)

/-- How often the uuid is recorded. -/
def copies (log : Log) (u : Option Uuid) : Nat := (log.filter fun r => decide (r.event.uuid = u)).length

/-- The positions an answer of a reader shows. -/
def Displays : Look → Seen → Nat → Prop
  | .read .., .events l h, a => (∃ e ∈ l, e.position = a) ∨ h = some a
  | .head, .position p, a => p = some a
  | _, _, _ => False

/-- The position was known to be reached before the request was sent for the first time: when the history began, or from an answer to an append
or to a reader. -/
def KnownBefore (s : Spec.Db) (hist : History) (req : Request) (a : Nat) : Prop :=
  a ≤ s.log.length ∨
    ∃ t, (∀ t' id, (t', .asked id req) ∈ hist → t < t') ∧
      ((∃ id, (t, .answered id (.ok a)) ∈ hist) ∨ ∃ i l o, (t, .saw i l o) ∈ hist ∧ Displays l o a)

/-- Only this request uses its uuids. -/
def OwnUuids (s : Spec.Db) (hist : History) (req : Request) : Prop :=
  Foreign req (s.log.map (·.event)) ∧ ∀ t id r, (t, .asked id r) ∈ hist → r = req ∨ Foreign req r.events

/-- The call `id` is one of the attempts. -/
def Attempt (hist : History) (req : Request) (id : Nat) : Prop := ∀ t r, (t, .asked id r) ∈ hist → r = req

/-- The request `req` was sent any number of times, `log` is what is recorded. -/
structure OnceAt (hist : History) (req : Request) (log : Log) : Prop where
  /-- Never twice. -/
  atMost : ∀ e ∈ req.events, copies log e.uuid ≤ 1
  /-- All or nothing. -/
  together : (∀ e ∈ req.events, copies log e.uuid = 1) ∨ (∀ e ∈ req.events, copies log e.uuid = 0)
  /-- Success means that the events are recorded, at the positions up to the one answered. -/
  success : ∀ t id p, Attempt hist req id → (t, .answered id (.ok p)) ∈ hist →
    (∀ e ∈ req.events, copies log e.uuid = 1) ∧ ∃ k, p = k + req.events.length ∧ (log.drop k).take req.events.length = recordsOf req
  /-- All attempts that succeed are answered the same. -/
  same : ∀ t id p t' id' p', Attempt hist req id → (t, .answered id (.ok p)) ∈ hist → Attempt hist req id' → (t', .answered id' (.ok p')) ∈ hist → p = p'
  /-- A refusal of any attempt is final: nothing is recorded, and no other attempt has succeeded or will. -/
  refusal : ∀ t id e, Attempt hist req id → (t, .answered id (.error e)) ∈ hist → ¬ Failure (.error e) →
    ∀ e ∈ req.events, copies log e.uuid = 0

/-! ## Three stages -/

/-- Nothing of the request is recorded, and it can be appended. -/
structure Untried (req : Request) (c : Condition) (s : Spec.Db) : Prop where
  foreign : Foreign req (s.log.map (·.event))
  after : ∀ a ∈ c.after, a ≤ s.log.length

/-- It is recorded after the first `k` events. -/
structure TookAt (req : Request) (c : Condition) (k : Nat) (s : Spec.Db) : Prop where
  split : ∃ L l, s.log = L ++ recordsOf req ++ l ∧ L.length = k ∧ Foreign req (L.map (·.event)) ∧ Foreign req (l.map (·.event)) ∧ violations L c = []
  after : ∀ a ∈ c.after, a ≤ k

/-- It is not recorded and never will be. -/
structure Never (valid : Record → Prop) (req : Request) (c : Condition) (s : Spec.Db) : Prop where
  foreign : Foreign req (s.log.map (·.event))
  bars : violations s.log c ≠ [] ∨ (¬ ∀ r ∈ recordsOf req, valid r) ∨ (∃ t, req.tracking = some t ∧ 255 < t.source.utf8ByteSize) ∨
    ∃ t p, req.tracking = some t ∧ s.track t.source = some p ∧ t.position ≤ p

/-- What a step of the others does. -/
theorem other_effect {s : Spec.Db} {r : Request} : ∃ l, (append valid s r).2.log = s.log ++ l ∧ (∀ x ∈ l, x.event ∈ r.events) ∧
    ∀ src p, s.track src = some p → ∃ p', (append valid s r).2.track src = some p' ∧ p ≤ p' := by
  have h := append_case (valid := valid) s r
  have same : ∃ l, s.log = s.log ++ l ∧ (∀ x ∈ l, x.event ∈ r.events) ∧ ∀ src p, s.track src = some p → ∃ p', s.track src = some p' ∧ p ≤ p' :=
    ⟨[], by simp, by simp, fun _ p h => ⟨p, h, Nat.le_refl _⟩⟩
  generalize append valid s r = x at h ⊢
  cases h with
  | took h1 h2 h3 =>
    refine ⟨recordsOf r, rfl, fun x hx => ?_, fun src p hp => ?_⟩
    · obtain ⟨e, he, rfl⟩ := List.mem_map.mp hx
      exact he
    · unfold effect
      dsimp only
      cases ht : r.tracking with
      | none => exact ⟨p, hp, Nat.le_refl _⟩
      | some t =>
        by_cases hs : src = t.source
        · refine ⟨t.position, by simp [setTrack, hs], ?_⟩
          exact Nat.le_of_lt ((h3 t ht).2 p (hs ▸ hp))
        · exact ⟨p, by simp [setTrack, hs, hp], Nat.le_refl _⟩
  | repeated => exact same
  | conflict => exact same
  | invalid => exact same
  | longSource => exact same
  | notIncreasing => exact same

theorem violations_grow {L l : Log} {c : Condition} (h : violations L c ≠ []) : violations (L ++ l) c ≠ [] := by
  rw [violations_append]
  simp [h]

variable {req : Request} {c : Condition}

theorem foreign_append {L l : Log} : Foreign req ((L ++ l).map (·.event)) ↔ Foreign req (L.map (·.event)) ∧ Foreign req (l.map (·.event)) := by
  simp only [Foreign, List.map_append, List.mem_append]
  exact ⟨fun h => ⟨fun e he => h e (.inl he), fun e he => h e (.inr he)⟩, fun h e he => he.elim (h.1 e) (h.2 e)⟩

theorem other_foreign {r : Request} (hr : Foreign req r.events) {l : Log} (hl : ∀ x ∈ l, x.event ∈ r.events) : Foreign req (l.map (·.event)) := by
  intro e he
  obtain ⟨x, hx, rfl⟩ := List.mem_map.mp he
  exact hr _ (hl x hx)

theorem Untried.other {s : Spec.Db} (h : Untried req c s) {r : Request} (hr : Foreign req r.events) : Untried req c (append valid s r).2 := by
  obtain ⟨l, h1, h2, -⟩ := other_effect (valid := valid) (s := s) (r := r)
  refine ⟨by rw [h1]; exact foreign_append.mpr ⟨h.foreign, other_foreign hr h2⟩, fun a ha => ?_⟩
  rw [h1, List.length_append]
  have := h.after a ha
  omega

theorem TookAt.other {s : Spec.Db} {k : Nat} (h : TookAt req c k s) {r : Request} (hr : Foreign req r.events) : TookAt req c k (append valid s r).2 := by
  obtain ⟨l, h1, h2, -⟩ := other_effect (valid := valid) (s := s) (r := r)
  obtain ⟨L, l0, k1, k2, k3, k4, k5⟩ := h.split
  exact ⟨⟨L, l0 ++ l, by rw [h1, k1]; simp [List.append_assoc], k2, k3, foreign_append.mpr ⟨k4, other_foreign hr h2⟩, k5⟩, h.after⟩

theorem Never.other {s : Spec.Db} (h : Never valid req c s) {r : Request} (hr : Foreign req r.events) : Never valid req c (append valid s r).2 := by
  obtain ⟨l, h1, h2, h3⟩ := other_effect (valid := valid) (s := s) (r := r)
  refine ⟨by rw [h1]; exact foreign_append.mpr ⟨h.foreign, other_foreign hr h2⟩, ?_⟩
  rcases h.bars with b | b | b | ⟨t, p, b1, b2, b3⟩
  · exact .inl (h1 ▸ violations_grow b)
  · exact .inr (.inl b)
  · exact .inr (.inr (.inl b))
  · obtain ⟨p', g1, g2⟩ := h3 _ _ b2
    exact .inr (.inr (.inr ⟨t, p', b1, g1, by omega⟩))

/-- With nothing of the request recorded it is no repeat. -/
theorem not_repeat (hr : Retryable req c) {s : Spec.Db} (hf : Foreign req (s.log.map (·.event))) : ¬ IsRepeat s.log c req.events := by
  rintro ⟨-, -, -, h⟩
  obtain ⟨e, es, hes⟩ := List.exists_cons_of_ne_nil hr.some_event
  have hm : e.uuid ∈ ((violations s.log c).take req.events.length).map (·.event.uuid) := by rw [h, hes]; simp
  obtain ⟨x, hx, hxe⟩ := List.mem_map.mp hm
  have hx := (List.mem_filter.mp (List.mem_of_mem_take hx)).1
  obtain ⟨⟨pp, r⟩, hp, rfl⟩ := List.mem_map.mp hx
  obtain ⟨-, hp2⟩ := mem_numberFrom.mp hp
  have hmem : r ∈ s.log := List.mem_of_getElem? hp2
  refine hf r.event (List.mem_map.mpr ⟨r, hmem, rfl⟩) ?_
  rw [show r.event.uuid = e.uuid from hxe, hes]
  simp

/-- An attempt when nothing is recorded yet: it is appended, or it is refused and will be for ever. -/
theorem Untried.attempt (hr : Retryable req c) {s : Spec.Db} (h : Untried req c s) :
    ((append valid s req).1 = .ok (s.log.length + req.events.length) ∧ TookAt req c s.log.length (append valid s req).2) ∨
      ((∀ p, (append valid s req).1 ≠ .ok p) ∧ Never valid req c (append valid s req).2) := by
  have hcase := append_case (valid := valid) s req
  have hne := hr.some_event
  generalize append valid s req = x at hcase ⊢
  cases hcase with
  | took h1 h2 h3 =>
    left
    rw [if_neg hne]
    refine ⟨rfl, ⟨s.log, [], by simp [effect], rfl, h.foreign, by simp [Foreign], h1 c hr.condition⟩, h.after⟩
  | repeated c' h1 h2 h3 =>
    rw [hr.condition] at h1
    cases h1
    exact absurd h3 (not_repeat hr h.foreign)
  | conflict c' h1 h2 h3 =>
    rw [hr.condition] at h1
    cases h1
    exact .inr ⟨fun p e => by (cases e), h.foreign, .inl h2⟩
  | invalid h1 h2 => exact .inr ⟨fun p e => by (cases e), h.foreign, .inr (.inl h2)⟩
  | longSource t h1 h2 h3 => exact .inr ⟨fun p e => by (cases e), h.foreign, .inr (.inr (.inl ⟨t, h2, h3⟩))⟩
  | notIncreasing t p h1 h2 h3 h4 => exact .inr ⟨fun p e => by (cases e), h.foreign, .inr (.inr (.inr ⟨t, p, h2, h3, h4⟩))⟩

/-- An attempt when the request is recorded: the same answer, nothing changes. -/
theorem TookAt.attempt (hr : Retryable req c) {s : Spec.Db} {k : Nat} (h : TookAt req c k s) :
    append valid s req = (.ok (k + req.events.length), s) := by
  obtain ⟨L, l, k1, k2, k3, k4, k5⟩ := h.split
  have hrep := repeat_after_append (l := l) (tr := req.tracking) k5 hr.some_event hr.uuids hr.few hr.fits (fun a ha => by rw [k2]; exact h.after a ha)
  rw [show L ++ req.events.map (fun e => ⟨e, req.tracking⟩) ++ l = s.log from k1.symm, k2] at hrep
  have hv : violations s.log c ≠ [] := by
    intro h0
    have := congrArg List.length hrep.1.2.2.2
    rw [h0] at this
    simp at this
    exact hr.some_event (List.eq_nil_of_length_eq_zero this.symm)
  simp [Spec.append, hr.condition, hv, hrep.1, hrep.2]

/-- An attempt when it has been refused: refused again. -/
theorem Never.attempt (hr : Retryable req c) {s : Spec.Db} (h : Never valid req c s) :
    (∀ p, (append valid s req).1 ≠ .ok p) ∧ Never valid req c (append valid s req).2 := by
  have hcase := append_case (valid := valid) s req
  generalize append valid s req = x at hcase ⊢
  cases hcase with
  | took h1 h2 h3 =>
    exfalso
    rcases h.bars with b | b | ⟨t, b1, b2⟩ | ⟨t, p, b1, b2, b3⟩
    · exact b (h1 c hr.condition)
    · exact b h2
    · have := (h3 t b1).1; omega
    · have := (h3 t b1).2 p b2; omega
  | repeated c' h1 h2 h3 =>
    rw [hr.condition] at h1
    cases h1
    exact absurd h3 (not_repeat hr h.foreign)
  | conflict c' h1 h2 h3 => exact ⟨fun p e => by (cases e), h⟩
  | invalid h1 h2 => exact ⟨fun p e => by (cases e), h⟩
  | longSource t h1 h2 h3 => exact ⟨fun p e => by (cases e), h⟩
  | notIncreasing t p h1 h2 h3 h4 => exact ⟨fun p e => by (cases e), h⟩

/-! ## Sequences of appends -/

/-- Which answers the attempts in a list of appends get: all the same success, or none. -/
def Uniform (req : Request) (reqs : List Request) (os : List Outcome) (k : Option Nat) : Prop :=
  ∀ i : Nat, reqs[i]? = some req → ∀ o : Outcome, os[i]? = some o →
    match k with
    | some p => o = Outcome.ok p
    | none => ∀ p, o ≠ Outcome.ok p

theorem run_took (hr : Retryable req c) : ∀ (reqs : List Request) {s : Spec.Db} {k : Nat}, TookAt req c k s →
    (∀ r ∈ reqs, r = req ∨ Foreign req r.events) →
    TookAt req c k (appendAll valid s reqs).2 ∧ Uniform req reqs (appendAll valid s reqs).1 (some (k + req.events.length))
  | [], s, k, h, _ => ⟨h, fun i hi => by simp at hi⟩
  | r :: reqs, s, k, h, ho => by
    have hstep : TookAt req c k (append valid s r).2 := by
      rcases ho r (by simp) with rfl | hf
      · rw [h.attempt (valid := valid) hr]; exact h
      · exact h.other hf
    obtain ⟨h1, h2⟩ := run_took hr reqs hstep fun x hx => ho x (by simp [hx])
    refine ⟨h1, fun i hi o hoo => ?_⟩
    cases i with
    | zero =>
      simp only [List.getElem?_cons_zero, Option.some.injEq] at hi
      subst hi
      simp only [appendAll, List.getElem?_cons_zero, Option.some.injEq] at hoo
      rw [← hoo, h.attempt (valid := valid) hr]
    | succ i =>
      simp only [List.getElem?_cons_succ] at hi
      simp only [appendAll, List.getElem?_cons_succ] at hoo
      exact h2 i hi o hoo

theorem run_never (hr : Retryable req c) : ∀ (reqs : List Request) {s : Spec.Db}, Never valid req c s →
    (∀ r ∈ reqs, r = req ∨ Foreign req r.events) →
    Never valid req c (appendAll valid s reqs).2 ∧ Uniform req reqs (appendAll valid s reqs).1 none
  | [], s, h, _ => ⟨h, fun i hi => by simp at hi⟩
  | r :: reqs, s, h, ho => by
    have hstep : Never valid req c (append valid s r).2 := by
      rcases ho r (by simp) with rfl | hf
      · exact (h.attempt hr).2
      · exact h.other hf
    obtain ⟨h1, h2⟩ := run_never hr reqs hstep fun x hx => ho x (by simp [hx])
    refine ⟨h1, fun i hi o hoo => ?_⟩
    cases i with
    | zero =>
      simp only [List.getElem?_cons_zero, Option.some.injEq] at hi
      subst hi
      simp only [appendAll, List.getElem?_cons_zero, Option.some.injEq] at hoo
      rw [← hoo]
      exact (h.attempt hr).1
    | succ i =>
      simp only [List.getElem?_cons_succ] at hi
      simp only [appendAll, List.getElem?_cons_succ] at hoo
      exact h2 i hi o hoo

/-- From a database without the request: in the end it is recorded once and all attempts were told so, or it is not recorded and none was. -/
theorem run_untried (hr : Retryable req c) : ∀ (reqs : List Request) {s : Spec.Db}, Untried req c s →
    (∀ r ∈ reqs, r = req ∨ Foreign req r.events) →
    (∃ k, TookAt req c k (appendAll valid s reqs).2 ∧ Uniform req reqs (appendAll valid s reqs).1 (some (k + req.events.length))) ∨
      (Foreign req ((appendAll valid s reqs).2.log.map (·.event)) ∧ Uniform req reqs (appendAll valid s reqs).1 none)
  | [], s, h, _ => .inr ⟨h.foreign, fun i hi => by simp at hi⟩
  | r :: reqs, s, h, ho => by
    have ho' : ∀ x ∈ reqs, x = req ∨ Foreign req x.events := fun x hx => ho x (by simp [hx])
    by_cases hrr : r = req
    · subst hrr
      rcases h.attempt (valid := valid) hr with ⟨h1, h2⟩ | ⟨h1, h2⟩
      · obtain ⟨g1, g2⟩ := run_took (valid := valid) hr reqs h2 ho'
        refine .inl ⟨_, g1, fun i hi o hoo => ?_⟩
        cases i with
        | zero =>
          simp only [appendAll, List.getElem?_cons_zero, Option.some.injEq] at hoo
          rw [← hoo, h1]
        | succ i =>
          simp only [List.getElem?_cons_succ] at hi
          simp only [appendAll, List.getElem?_cons_succ] at hoo
          exact g2 i hi o hoo
      · obtain ⟨g1, g2⟩ := run_never hr reqs h2 ho'
        refine .inr ⟨g1.foreign, fun i hi o hoo => ?_⟩
        cases i with
        | zero =>
          simp only [appendAll, List.getElem?_cons_zero, Option.some.injEq] at hoo
          rw [← hoo]
          exact h1
        | succ i =>
          simp only [List.getElem?_cons_succ] at hi
          simp only [appendAll, List.getElem?_cons_succ] at hoo
          exact g2 i hi o hoo
    · have hf := (ho r (by simp)).resolve_left hrr
      have shift : ∀ k, Uniform req reqs (appendAll valid (append valid s r).2 reqs).1 k → Uniform req (r :: reqs) (appendAll valid s (r :: reqs)).1 k := by
        intro k g2 i hi o hoo
        cases i with
        | zero =>
          simp only [List.getElem?_cons_zero, Option.some.injEq] at hi
          exact absurd hi hrr
        | succ i =>
          simp only [List.getElem?_cons_succ] at hi
          simp only [appendAll, List.getElem?_cons_succ] at hoo
          exact g2 i hi o hoo
      rcases run_untried hr reqs (h.other (valid := valid) hf) ho' with ⟨k, g1, g2⟩ | ⟨g1, g2⟩
      · exact .inl ⟨k, g1, shift _ g2⟩
      · exact .inr ⟨g1, shift _ g2⟩

/-! ## Histories -/

theorem appendAll_count : ∀ (reqs : List Request) (s : Spec.Db), (appendAll valid s reqs).1.length = reqs.length
  | [], _ => rfl
  | r :: reqs, s => by simp [appendAll, appendAll_count reqs]

theorem saysAll_split : ∀ {rs rs' : List (Except Err Nat)} {os os' : List Outcome}, rs.length = os.length → SaysAll (rs ++ rs') (os ++ os') →
    SaysAll rs os ∧ SaysAll rs' os'
  | [], _, [], _, _, h => ⟨trivial, h⟩
  | _ :: rs, _, _ :: os, _, hl, h => by
    have := saysAll_split (rs := rs) (os := os) (by simpa using hl) h.2
    exact ⟨⟨h.1, this.1⟩, this.2⟩
  | [], _, _ :: _, _, hl, _ => by simp at hl
  | _ :: _, _, [], _, hl, _ => by simp at hl

theorem saysAll_get : ∀ {rs : List (Except Err Nat)} {os : List Outcome}, SaysAll rs os → ∀ (i : Nat) {r : Except Err Nat}, rs[i]? = some r →
    ∃ o, os[i]? = some o ∧ Says r o
  | [], _, _, i, r, h => by simp at h
  | r :: rs, [], hs, _, _, _ => hs.elim
  | r :: rs, o :: os, hs, 0, r', h => by
    simp only [List.getElem?_cons_zero, Option.some.injEq] at h
    subst h
    exact ⟨o, rfl, hs.1⟩
  | r :: rs, o :: os, hs, i + 1, r', h => by
    simp only [List.getElem?_cons_succ] at h
    exact saysAll_get hs.2 i h

/-- The appends before and after an instant. -/
theorem cut {A : List Done} (h : A.Pairwise fun x y => x.time ≤ y.time) (t : Nat) :
    A = (A.filter fun x => decide (x.time ≤ t)) ++ A.filter fun x => !decide (x.time ≤ t) := by
  induction A with
  | nil => rfl
  | cons x A ih =>
    rw [List.pairwise_cons] at h
    by_cases hx : x.time ≤ t
    · simp only [List.filter_cons, hx, decide_true, if_true, Bool.not_true, Bool.false_eq_true, if_false, List.cons_append]
      rw [← ih h.2]
    · have h1 : (A.filter fun y => decide (y.time ≤ t)) = [] := by
        rw [List.filter_eq_nil_iff]
        intro y hy
        have := h.1 y hy
        simp
        omega
      have h2 : (A.filter fun y => !decide (y.time ≤ t)) = A := by
        rw [List.filter_eq_self]
        intro y hy
        have := h.1 y hy
        simp
        omega
      simp [hx, h1, h2]

theorem position_le {log : Log} {e : SeqEvent} (h : e ∈ sequenced log) : e.position ≤ log.length := by
  obtain ⟨⟨pp, r⟩, hp, rfl⟩ := List.mem_map.mp h
  obtain ⟨hp1, hp2⟩ := mem_numberFrom.mp hp
  obtain ⟨hp3, _⟩ := List.getElem?_eq_some_iff.mp hp2
  simp [toSeq]; omega

theorem read_sequenced {log : Log} {q : Query} {start : Option Nat} {b : Bool} {limit : Option Nat} {e : SeqEvent}
    (h : e ∈ Spec.read log q start b limit) : e ∈ sequenced log := by
  have sub : ∀ {l : List SeqEvent}, e ∈ applyLimit limit l → e ∈ l := by
    intro l h
    unfold applyLimit at h
    split at h
    · exact h
    · exact List.mem_of_mem_take h
  have := sub h
  split at this
  · exact (List.mem_filter.mp (List.mem_reverse.mp this)).1
  · exact (List.mem_filter.mp this).1

theorem displays_le {s : Spec.Db} {l : Look} {a : Nat} (h : Displays l (l.on s) a) : a ≤ s.log.length := by
  have hh : ∀ {a}, Spec.head s.log = some a → a ≤ s.log.length := by
    intro a h
    unfold Spec.head at h
    split at h
    · cases h
    · cases h; exact Nat.le_refl _
  cases l with
  | head => exact hh h
  | track => exact h.elim
  | read q start b limit =>
    rcases h with ⟨e, he, rfl⟩ | h
    · exact position_le (read_sequenced he)
    · cases limit with
      | none => exact hh h
      | some n =>
        dsimp only at h
        cases hg : (Spec.read s.log (q.getD ⟨[]⟩) start b (some n)).getLast? with
        | none => rw [hg] at h; cases h
        | some e =>
          rw [hg] at h
          cases h
          exact position_le (read_sequenced (List.mem_of_getLast? hg))

theorem ok_le {s : Spec.Db} {r : Request} {p : Nat} (h : (Spec.append valid s r).1 = .ok p) : p ≤ (Spec.append valid s r).2.log.length := by
  have hcase := append_case (valid := valid) s r
  generalize Spec.append valid s r = x at hcase h
  cases hcase with
  | took h1 h2 h3 =>
    cases h
    simp only [effect, List.length_append, recordsOf, List.length_map]
    split <;> omega
  | repeated c h1 h2 h3 =>
    cases h
    show repeatPosition s.log c r.events ≤ s.log.length
    unfold repeatPosition
    cases hl : ((violations s.log c).take r.events.length).getLast? with
    | none => simp
    | some x =>
      have hx := (List.mem_filter.mp (List.mem_of_mem_take (List.mem_of_getLast? hl))).1
      exact position_le hx
  | _ => cases h

theorem run_foreign : ∀ (reqs : List Request) {s : Spec.Db}, Foreign req (s.log.map (·.event)) → (∀ r ∈ reqs, Foreign req r.events) →
    Foreign req ((appendAll valid s reqs).2.log.map (·.event))
  | [], _, h, _ => h
  | r :: reqs, s, h, hf => by
    obtain ⟨l, h1, h2, -⟩ := other_effect (valid := valid) (s := s) (r := r)
    refine run_foreign (s := (Spec.append valid s r).2) reqs ?_ fun x hx => hf x (by simp [hx])
    show Foreign req ((Spec.append valid s r).2.log.map (·.event))
    rw [h1]
    exact foreign_append.mpr ⟨h, other_foreign (hf r (by simp)) h2⟩

variable {s : Spec.Db} {hist : History} {A : List Done} {τ : Nat → Nat}

/-- The appends up to the moment at which `after` was known to be reached; the request is not among them. -/
theorem linear_known (hl : Linear valid s hist A τ) (hk : ∀ a ∈ c.after, KnownBefore s hist req a) :
    ∃ A0 A1, A = A0 ++ A1 ∧ (∀ x ∈ A0, x.req ≠ req) ∧ ∀ a ∈ c.after, a ≤ (appendAll valid s (A0.map (·.req))).2.log.length := by
  cases hca : c.after with
  | none => exact ⟨[], A, rfl, by simp, by simp⟩
  | some a =>
    rcases hk a hca with h | ⟨t, hfirst, h⟩
    · exact ⟨[], A, rfl, by simp, fun b hb => by cases hb; exact h⟩
    have early : ∀ x ∈ A, x.time < t → x.req ≠ req := by
      intro x hx hxt e
      obtain ⟨t', h1, h2⟩ := hl.asked x hx
      rw [e] at h1
      have := hfirst _ _ h1
      omega
    rcases h with ⟨id, h⟩ | ⟨i, l, o, h, hd⟩
    · rcases hl.answered _ _ _ h with ⟨x, hx, -, h2, h3⟩ | ⟨h, -⟩
      · obtain ⟨B, C, rfl⟩ := List.append_of_mem hx
        have hsort := hl.sorted
        rw [List.pairwise_append] at hsort
        refine ⟨B ++ [x], C, by simp, fun y hy => ?_, fun b hb => ?_⟩
        · refine early y (by rcases List.mem_append.mp hy with h | h <;> simp_all) ?_
          rcases List.mem_append.mp hy with h | h
          · have := hsort.2.2 y h x (by simp); omega
          · rw [List.mem_singleton.mp h]; exact h3
        · cases hb
          have hlegal := hl.legal
          rw [List.map_append, List.map_append, appendAll_append] at hlegal
          have h4 := (saysAll_split (by simp [appendAll_count]) hlegal).2
          simp only [List.map_cons, appendAll] at h4
          have h5 := h4.1
          rw [h2] at h5
          rw [List.map_append, appendAll_append]
          simp only [List.map_cons, List.map_nil, appendAll]
          refine ok_le (valid := valid) ?_
          generalize (Spec.append valid _ x.req).1 = q at h5
          cases q with
          | ok p => exact congrArg _ (Eq.symm h5)
          | refusedIntegrity => exact h5.elim
          | refusedArgument => exact h5.elim
      · exact h.elim
    · obtain ⟨-, h2, h3⟩ := hl.looks _ _ _ _ h
      refine ⟨_, _, cut hl.sorted (τ i), fun x hx => ?_, fun b hb => ?_⟩
      · have hx := List.mem_filter.mp hx
        exact early x hx.1 (by have := of_decide_eq_true hx.2; omega)
      · cases hb
        rw [h3] at hd
        exact displays_le hd

theorem copies_append (L l : Log) (u : Option Uuid) : copies (L ++ l) u = copies L u + copies l u := by
  simp [copies]

theorem copies_foreign {L : Log} (h : Foreign req (L.map (·.event))) {e : Event} (he : e ∈ req.events) : copies L e.uuid = 0 := by
  unfold copies
  rw [List.length_eq_zero_iff, List.filter_eq_nil_iff]
  intro r hr hu
  refine h r.event (List.mem_map.mpr ⟨r, hr, rfl⟩) ?_
  rw [of_decide_eq_true hu]
  exact List.mem_map.mpr ⟨e, he, rfl⟩

theorem copies_own (hn : (req.events.map (·.uuid)).Nodup) {e : Event} (he : e ∈ req.events) : copies (recordsOf req) e.uuid = 1 := by
  have key : ∀ (evs : List Event) (tr : Option Tracking) (u : Option Uuid),
      copies (evs.map fun e => ⟨e, tr⟩) u = (evs.map (·.uuid)).count u := by
    intro evs tr u
    induction evs with
    | nil => rfl
    | cons x evs ih =>
      unfold copies at ih ⊢
      by_cases hx : x.uuid = u
      · simp [hx, ih]
      · simp [hx, ih]
  show copies (req.events.map fun e => ⟨e, req.tracking⟩) e.uuid = 1
  rw [key]
  exact List.count_eq_one_of_mem hn (List.mem_map.mpr ⟨e, he, rfl⟩)

theorem TookAt.copies {k : Nat} (hr : Retryable req c) (h : TookAt req c k s) {e : Event} (he : e ∈ req.events) : copies s.log e.uuid = 1 := by
  obtain ⟨L, l, k1, -, k3, k4, -⟩ := h.split
  rw [k1, copies_append, copies_append, copies_foreign k3 he, copies_foreign k4 he, copies_own hr.distinct he]

/-- C74, for any history that can be understood as appends one after the other. -/
theorem C74_linear (hl : Linear valid s hist A τ) (hr : Retryable req c) (hk : ∀ a ∈ c.after, KnownBefore s hist req a)
    (ho : OwnUuids s hist req) : OnceAt hist req (appendAll valid s (A.map (·.req))).2.log := by
  have hall : ∀ x ∈ A, x.req = req ∨ Foreign req x.req.events := fun x hx => by
    obtain ⟨t, h, -⟩ := hl.asked x hx
    exact ho.2 _ _ _ h
  obtain ⟨A0, A1, hA, h0, hafter⟩ := linear_known hl hk
  have hf0 : Foreign req ((appendAll valid s (A0.map (·.req))).2.log.map (·.event)) := by
    refine run_foreign _ ho.1 fun r hr => ?_
    obtain ⟨x, hx, rfl⟩ := List.mem_map.mp hr
    exact (hall x (by rw [hA]; simp [hx])).resolve_left (h0 x hx)
  have hrun := run_untried (valid := valid) hr (A1.map (·.req)) ⟨hf0, hafter⟩ fun r hr => by
    obtain ⟨x, hx, rfl⟩ := List.mem_map.mp hr
    exact hall x (by rw [hA]; simp [hx])
  have hstate : (appendAll valid s (A.map (·.req))).2 = (appendAll valid (appendAll valid s (A0.map (·.req))).2 (A1.map (·.req))).2 := by
    rw [hA, List.map_append, appendAll_append]
  have hlegal : SaysAll (A1.map (·.ans)) (appendAll valid (appendAll valid s (A0.map (·.req))).2 (A1.map (·.req))).1 := by
    have := hl.legal
    rw [hA, List.map_append, List.map_append, appendAll_append] at this
    exact (saysAll_split (by simp [appendAll_count]) this).2
  rw [hstate]
  generalize appendAll valid (appendAll valid s (A0.map (·.req))).2 (A1.map (·.req)) = R at *
  -- the answer to an attempt
  have hans : ∀ t id a, Attempt hist req id → (t, .answered id a) ∈ hist → ¬ Failure a →
      ∃ i : Nat, (A1.map (·.req))[i]? = some req ∧ ∃ o, R.1[i]? = some o ∧ Says a o := by
    intro t id a hid ha hf
    rcases hl.answered _ _ _ ha with ⟨x, hx, h1, h2, -⟩ | ⟨h, -⟩
    · have hreq : x.req = req := by
        obtain ⟨t', h3, -⟩ := hl.asked x hx
        exact hid _ _ (h1 ▸ h3)
      have hx1 : x ∈ A1 := by
        rw [hA] at hx
        exact (List.mem_append.mp hx).resolve_left fun h => h0 x h hreq
      obtain ⟨i, hi⟩ := List.getElem?_of_mem hx1
      obtain ⟨o, ho1, ho2⟩ := saysAll_get hlegal i (r := a) (by rw [List.getElem?_map, hi]; simp [h2])
      exact ⟨i, by rw [List.getElem?_map, hi]; simp [hreq], o, ho1, ho2⟩
    · exact absurd h hf
  rcases hrun with ⟨k, hT, hU⟩ | ⟨hF, hU⟩
  · have hc1 : ∀ e ∈ req.events, copies R.2.log e.uuid = 1 := fun e he => hT.copies hr he
    have hok : ∀ t id p, Attempt hist req id → (t, .answered id (.ok p)) ∈ hist → p = k + req.events.length := by
      intro t id p hid ha
      obtain ⟨i, h1, o, h2, h3⟩ := hans _ _ _ hid ha (fun h => h)
      rw [hU i h1 o h2] at h3
      exact h3
    refine ⟨fun e he => Nat.le_of_eq (hc1 e he), .inl hc1, fun t id p hid ha => ⟨hc1, k, hok _ _ _ hid ha, ?_⟩,
      fun t id p t' id' p' h1 h2 h3 h4 => (hok _ _ _ h1 h2).trans (hok _ _ _ h3 h4).symm, fun t id e hid ha hf => ?_⟩
    · obtain ⟨L, l, k1, k2, -⟩ := hT.split
      rw [k1, ← k2]
      simp [List.append_assoc, recordsOf]
    · obtain ⟨i, h1, o, h2, h3⟩ := hans _ _ _ hid ha hf
      rw [hU i h1 o h2] at h3
      cases e <;> exact h3.elim
  · have hc0 : ∀ e ∈ req.events, copies R.2.log e.uuid = 0 := fun e he => copies_foreign hF he
    have hno : ∀ t id p, Attempt hist req id → (t, .answered id (.ok p)) ∉ hist := by
      intro t id p hid ha
      obtain ⟨i, h1, o, h2, h3⟩ := hans _ _ _ hid ha (fun h => h)
      have := hU i h1 o h2
      cases o with
      | ok p' => exact this p' rfl
      | refusedIntegrity => exact h3.elim
      | refusedArgument => exact h3.elim
    exact ⟨fun e he => by rw [hc0 e he]; omega, .inr hc0, fun t id p hid ha => absurd ha (hno t id p hid),
      fun t id p _ _ _ hid ha => absurd ha (hno t id p hid), fun _ _ _ _ _ _ => hc0⟩

/-- With a position of an upstream source. -/
theorem run_tracked {t : Tracking} (ht : req.tracking = some t) (hn : (req.events.map (·.uuid)).Nodup) : ∀ (reqs : List Request) {s : Spec.Db},
    (∀ r ∈ reqs, r = req ∨ Foreign req r.events) →
    Foreign req (s.log.map (·.event)) ∨ ((∀ e ∈ req.events, copies s.log e.uuid = 1) ∧ ∃ p, s.track t.source = some p ∧ t.position ≤ p) →
    (∀ e ∈ req.events, copies (appendAll valid s reqs).2.log e.uuid = 1) ∨ Foreign req ((appendAll valid s reqs).2.log.map (·.event))
  | [], s, _, h => h.elim .inr fun h => .inl h.1
  | r :: reqs, s, ho, h => by
    refine run_tracked (s := (Spec.append valid s r).2) ht hn reqs (fun x hx => ho x (by simp [hx])) ?_
    rcases ho r (by simp) with rfl | hf
    · have hcase := append_case (valid := valid) s r
      generalize Spec.append valid s r = x at hcase ⊢
      cases hcase with
      | took h1 h2 h3 =>
        rcases h with h | ⟨-, p, hp1, hp2⟩
        · refine .inr ⟨fun e he => ?_, t.position, ?_, Nat.le_refl _⟩
          · show copies (s.log ++ recordsOf r) e.uuid = 1
            rw [copies_append, copies_foreign h he, copies_own hn he]
          · simp [effect, ht, setTrack]
        · exact absurd ((h3 t ht).2 p hp1) (by omega)
      | repeated => exact h
      | conflict => exact h
      | invalid => exact h
      | longSource => exact h
      | notIncreasing => exact h
    · obtain ⟨l, h1, h2, h3⟩ := other_effect (valid := valid) (s := s) (r := r)
      rw [h1]
      have hl := other_foreign hf h2
      rcases h with h | ⟨h, p, hp1, hp2⟩
      · exact .inl (foreign_append.mpr ⟨h, hl⟩)
      · obtain ⟨p', k1, k2⟩ := h3 _ _ hp1
        exact .inr ⟨fun e he => by rw [copies_append, h e he, copies_foreign hl he], p', k1, Nat.le_trans hp2 k2⟩

/-- C74, requests with a position of an upstream source, with or without a condition: all events are recorded once, or none. -/
theorem C74_tracked (hl : Linear valid s hist A τ) {t : Tracking} (ht : req.tracking = some t) (hn : (req.events.map (·.uuid)).Nodup)
    (ho : OwnUuids s hist req) :
    (∀ e ∈ req.events, copies (appendAll valid s (A.map (·.req))).2.log e.uuid = 1) ∨
      ∀ e ∈ req.events, copies (appendAll valid s (A.map (·.req))).2.log e.uuid = 0 := by
  refine (run_tracked ht hn (A.map (·.req)) (fun r hr => ?_) (.inl ho.1)).imp id fun h e he => copies_foreign h he
  obtain ⟨x, hx, rfl⟩ := List.mem_map.mp hr
  obtain ⟨t', h, -⟩ := hl.asked x hx
  exact ho.2 _ _ _ h

open Classical in
/-- C74.  A client sends a request with a condition any number of times, at the same time or one after the other, across failures, lost answers,
and crashes of the server, among any requests of other clients.  The events of the request have uuids of their own and match the query of its
condition, and the position in the condition was known to be reached.  Then the request is recorded at most once; when any attempt has succeeded
it is recorded exactly once, and every attempt that succeeds is answered with the same position; when any attempt has been refused it is not
recorded, nor will be by another attempt. -/
theorem C74_once {conf : Conf} {kw : Nat} {env : Env} (he : EnvOk env) (hc : ConfOk conf kw) (hH : ∀ t, Codec.NormalizedTo kw (env.H t)) {d : PDb}
    {s : Spec.Db} (hd : LiveS conf hc env.H d s) {W : World} (hw : Worlds conf env (.init d) W) (hr : Retryable req c)
    (hk : ∀ a ∈ c.after, KnownBefore s W.hist req a) (ho : OwnUuids s W.hist req) :
    ∃ s', Shows conf env W.sys.d s' ∧ OnceAt W.hist req s'.log := by
  obtain ⟨A, τ, hl, hs⟩ := C58_linearizable he hc hH hd hw
  exact ⟨_, hs, C74_linear hl hr hk ho⟩

open Classical in
/-- C74 with the pipelined writer, under the conditions of `C64_linearizable_partial`. -/
theorem C74_once_pipelined {conf : Conf} {kw : Nat} {env : Env} (hg : conf.g.pageSize = defaultPageSize) (he : EnvOk env) (hc : ConfOk conf kw)
    (hH : ∀ t, Codec.NormalizedTo kw (env.H t)) {d : PDb} {s : Spec.Db} (hd : LiveS conf hc env.H d s) {st : Pipe}
    (hst : Pipe.start conf d = .ok st) {W : PWorld} (hw : PWorlds conf env Careful (.init st) W) (hr : Retryable req c)
    (hk : ∀ a ∈ c.after, KnownBefore s W.hist req a) (ho : OwnUuids s W.hist req) :
    ∃ s', Shows conf env W.sys.st.db s' ∧ OnceAt W.hist req s'.log := by
  obtain ⟨A, τ, hl, hs⟩ := C64_linearizable_partial hg he hc hH hd hst hw
  exact ⟨_, hs, C74_linear hl hr hk ho⟩

section Examples

/-- Appending twice. -/
def exTwice (r : Request) : (Except Err Nat × Except Err Nat) × List Nat :=
  let x := Db.append MB exEnv r .good MemDb.empty
  let y := Db.append MB exEnv r .good x.2
  ((x.1, y.1), r.events.map fun e => copies y.2.log e.uuid)

/-- As it should be. -/
example : exTwice exReq = ((.ok 2, .ok 2), [1, 1]) := by decide +kernel

/-- Without a condition the events are recorded again. -/
theorem C74_plain_false : exTwice { exReq with condition := none, tracking := none } = ((.ok 2, .ok 4), [2, 2]) := by decide +kernel

/-- With only a position of an upstream source they are recorded once; but trying again is refused, although the append had happened. -/
theorem C74_tracked_false : exTwice { exReq with condition := none } = ((.ok 2, .error (.integrity "non-increasing tracking position")), [1, 1]) := by
  decide +kernel

/-- The query of the condition does not match the events: recorded again. -/
theorem C74_unmatched_false :
    exTwice { exReq with condition := some ⟨⟨[⟨["U"], []⟩]⟩, some 0⟩, tracking := none } = ((.ok 2, .ok 4), [2, 2]) := by decide +kernel

/-- It matches one of two events: refused, although the append had happened. -/
theorem C74_half_matched_false :
    exTwice ⟨[exEv 1, { exEv 2 with eventType := "U" }], some ⟨⟨[⟨["T"], ["t"]⟩]⟩, some 0⟩, none⟩ = ((.ok 2, .error (.integrity "condition matched")), [1, 1]) := by
  decide +kernel

/-- The position in the condition was not reached yet: recorded again. -/
theorem C74_ahead_false : exTwice { exReq with condition := some ⟨⟨[⟨["T"], ["t"]⟩]⟩, some 2⟩, tracking := none } = ((.ok 2, .ok 4), [2, 2]) := by
  decide +kernel

/-- An event without a uuid: refused, although the append had happened. -/
theorem C74_anonymous_false :
    exTwice { exReq with events := [{ exEv 1 with uuid := none }], tracking := none } = ((.ok 1, .error (.integrity "condition matched")), [1]) := by
  decide +kernel

def exCond : Condition := ⟨⟨[⟨["T"], ["t"]⟩]⟩, some 0⟩

theorem exRetryable : Retryable exReq exCond where
  condition := rfl
  some_event := by simp [exReq]
  few := by decide
  uuids := by decide
  distinct := by decide
  fits := by decide

/-- The server crashes after the append and before the answer; the client tries again. -/
def exLost : History := [(1, .asked 1 exReq), (3, .crashed), (4, .asked 2 exReq), (6, .answered 2 (.ok 2))]

theorem exLost_linear : Linear (fun _ => True) Spec.Db.empty exLost [⟨2, 1, exReq, .ok 2⟩, ⟨5, 2, exReq, .ok 2⟩] (fun _ => 0) where
  clock := by decide
  sorted := by decide
  once := by decide
  legal := by
    have h : (appendAll (fun _ => True) Spec.Db.empty [exReq, exReq]).1 = [.ok 2, .ok 2] := by decide +kernel
    show SaysAll [.ok 2, .ok 2] (appendAll (fun _ => True) Spec.Db.empty [exReq, exReq]).1
    rw [h]
    exact ⟨rfl, rfl, trivial⟩
  asked := by
    intro x hx
    simp only [List.mem_cons, List.not_mem_nil, or_false] at hx
    rcases hx with rfl | rfl
    · exact ⟨1, by simp [exLost], by decide⟩
    · exact ⟨4, by simp [exLost], by decide⟩
  answered := by
    intro t id a h
    simp only [exLost, List.mem_cons, Prod.mk.injEq, reduceCtorEq, and_false, false_or, List.not_mem_nil, or_false, Happening.answered.injEq] at h
    obtain ⟨rfl, rfl, rfl⟩ := h
    exact .inl ⟨⟨5, 2, exReq, .ok 2⟩, by simp, rfl, rfl, by decide⟩
  onceAnswered := by
    intro t t' id a a' h h'
    simp [exLost] at h h'
    omega
  askedFirst := by
    intro t id a h
    simp [exLost] at h
    obtain ⟨rfl, rfl, rfl⟩ := h
    exact ⟨4, exReq, by simp [exLost], by decide⟩
  looks := by
    intro t i l a h
    simp [exLost] at h
  heads := by
    intro t h hh
    simp [exLost] at hh

theorem exLost_own : OwnUuids Spec.Db.empty exLost exReq := by
  refine ⟨by simp [Foreign, Spec.Db.empty], fun t id r h => ?_⟩
  simp [exLost] at h
  rcases h with ⟨-, -, h⟩ | ⟨-, -, h⟩ <;> exact .inl h

/-- The events are there once, and the second attempt has succeeded. -/
example : OnceAt exLost exReq (appendAll (fun _ => True) Spec.Db.empty [exReq, exReq]).2.log ∧ Attempt exLost exReq 2 ∧
    (∃ t, (t, .answered 2 (.ok 2)) ∈ exLost) ∧ copies (appendAll (fun _ => True) Spec.Db.empty [exReq, exReq]).2.log (exU 1) = 1 := by
  refine ⟨C74_linear exLost_linear exRetryable ?_ exLost_own, ?_, ⟨6, by simp [exLost]⟩, by decide +kernel⟩
  · intro a ha
    cases ha
    exact .inl (Nat.zero_le _)
  · intro t r h
    simp [exLost] at h
    exact h.2

example : (∀ e ∈ exReq.events, copies (appendAll (fun _ => True) Spec.Db.empty [exReq, exReq]).2.log e.uuid = 1) ∨
    ∀ e ∈ exReq.events, copies (appendAll (fun _ => True) Spec.Db.empty [exReq, exReq]).2.log e.uuid = 0 :=
  C74_tracked exLost_linear rfl exRetryable.distinct exLost_own

/-- In a run of the model. -/
example : ∃ (d : PDb) (W : World) (s' : Spec.Db), Worlds exConf exConstEnv (.init d) W ∧ (11, .answered 1 (.ok 2)) ∈ W.hist ∧
    Shows exConf exConstEnv W.sys.d s' ∧ OnceAt W.hist exReq s'.log := by
  obtain ⟨d, W, h1, h2, h3⟩ := exHistory
  obtain ⟨s', h4, h5⟩ := C74_once ⟨fun l => List.Perm.refl l⟩ exConf_ok exConstEnv_width h1 h2 exRetryable
    (by intro a ha; cases ha; exact .inl (Nat.zero_le _)) (by
      refine ⟨by simp [Foreign, Spec.Db.empty], fun t id r h => ?_⟩
      rw [h3] at h
      simp at h
      exact .inl h.2.2)
  exact ⟨d, W, s', h2, by rw [h3]; simp, h4, h5⟩

end Examples

end Uma.Props
