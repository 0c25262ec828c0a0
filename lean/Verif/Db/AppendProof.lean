import Verif.Db.Lawful
import Verif.Db.ReadCorrect

/-! `processAppend` does what `Spec.append` says. -/

set_option linter.unusedSimpArgs false

namespace Uma.Db
open Uma.Spec

variable {δ σ υ ι : Type}

/-- Condition `after` values for which `after + 1` does not overflow. -/
def AfterOk (req : Request) : Prop := ∀ c ∈ req.condition, ∀ a ∈ c.after, a + 1 < 2 ^ 64

theorem fromAfter_eq {a : Option Nat} (h : ∀ x ∈ a, x + 1 < 2 ^ 64) : fromAfter a = a.map (· + 1) := by
  cases a with
  | none => rfl
  | some a => simp only [fromAfter, Option.map_some]; rw [Nat.mod_eq_of_lt (h a rfl)]

theorem inRange_after {a : Option Nat} {p : Nat} :
    InRange (a.map (· + 1)) false p ↔ ∀ x ∈ a, x < p := by
  cases a with
  | none => simp [InRange]
  | some a => simp [InRange]; omega

theorem read_violations {log : Log} {c : Condition} (h : ∀ x ∈ c.after, x + 1 < 2 ^ 64) (n : Nat) :
    Spec.read log c.failIfEventsMatch (fromAfter c.after) false (some n) = (violations log c).take n := by
  rw [fromAfter_eq h]
  simp only [Spec.read, applyLimit, violations, Bool.false_eq_true, if_false]
  congr 1
  apply List.filter_congr
  intro e _
  congr 1
  rw [Bool.eq_iff_iff, decide_eq_true_iff, inRange_after]
  cases c.after <;> simp

structure EnvOk (env : Env) : Prop where
  ord : ∀ l, (env.ord l).Perm l

theorem filterMap_ids {events : List Event} :
    (events.length = (events.filterMap (fun e => if e.uuid.isSome then some e.uuid else none)).length ↔
      ∀ e ∈ events, e.uuid.isSome) ∧
    ((∀ e ∈ events, e.uuid.isSome) →
      events.filterMap (fun e => if e.uuid.isSome then some e.uuid else none) = events.map (·.uuid)) := by
  induction events with
  | nil => simp
  | cons e es ih =>
    have hle : (es.filterMap (fun e => if e.uuid.isSome then some e.uuid else none)).length ≤ es.length :=
      List.length_filterMap_le _ _
    by_cases he : e.uuid.isSome
    · simp [List.filterMap_cons, he]
      exact ⟨by simpa using ih.1, by simpa using ih.2⟩
    · simp [List.filterMap_cons, he]
      omega

/-- Result of the condition check. -/
theorem checkCondition_spec {env : Env} (he : EnvOk env) {s : Snap} {log : Log} {Bad : Err → Prop} {req : Request}
    (hr : ∀ c ∈ req.condition, Checks env.H s log c.failIfEventsMatch Bad) (ha : AfterOk req) (c : Nat → Cancel) :
    checkCondition env s req c =
      (match req.condition.bind fun c => if violations log c = [] then none else some c with
      | none => none
      | some cond =>
        if req.events = [] then some (.error (.panic "attempt to subtract with overflow"))
        else if IsRepeat log cond req.events then some (.ok (repeatPosition log cond req.events))
        else some (.error (.integrity "condition matched"))) ∨
    (checkCondition env s req c = some (.error .cancelledByUser) ∧ ∃ i j, c i j = true) ∨
    ∃ e, checkCondition env s req c = some (.error e) ∧ Bad e := by
  unfold checkCondition
  cases hc : req.condition with
  | none => left; rfl
  | some cond =>
    have ha' := ha cond (by simp [hc])
    simp only [Option.bind_some]
    have hr' := hr cond (by simp [hc])
    rcases hr' env.ord he.ord (fromAfter cond.after) (some 1) (c 0) with h | ⟨h, j, hj⟩ | ⟨e, h, hbad⟩
    · rw [h, read_violations ha']
      cases hv : violations log cond with
      | nil => left; simp
      | cons v vs =>
        simp only [List.take_succ_cons, reduceCtorEq, if_false]
        unfold isRequestIdempotent
        simp only
        have hids := filterMap_ids (events := req.events)
        by_cases hall : (∀ e ∈ req.events, e.uuid.isSome) ∧ req.events.length < 2 ^ 32
        · have hcond : req.events.length =
              (req.events.filterMap (fun e => if e.uuid.isSome then some e.uuid else none)).length ∧
              req.events.length ≤ 2 ^ 32 - 1 := ⟨hids.1.mpr hall.1, by omega⟩
          rw [if_pos hcond]
          rcases hr' env.ord he.ord (fromAfter cond.after) (some req.events.length) (c 1) with
            h2 | ⟨h2, j, hj⟩ | ⟨e, h2, hbad⟩
          · rw [h2, read_violations ha']
            left
            simp only [hids.2 hall.1]
            by_cases hemp : req.events = []
            · simp [hemp]
            · rw [if_neg hemp]
              have hpos : 0 < req.events.length := List.length_pos_iff.mpr hemp
              by_cases hlen : ((violations log cond).take req.events.length).length = req.events.length
              · rw [if_pos hlen]
                have hne : (violations log cond).take req.events.length ≠ [] := by
                  intro h; rw [h] at hlen; simp at hlen; omega
                obtain ⟨last, hlast⟩ : ∃ x, ((violations log cond).take req.events.length).getLast? =
                    some x := by
                  rw [List.getLast?_eq_some_getLast hne]; exact ⟨_, rfl⟩
                rw [hlast]
                simp only
                by_cases hu : ((violations log cond).take req.events.length).map (·.event.uuid) =
                    req.events.map (·.uuid)
                · have hrep : IsRepeat log cond req.events := ⟨hemp, hall.1, hall.2, hu⟩
                  rw [if_pos hu, if_pos hrep]
                  simp [repeatPosition, hlast]
                · have hrep : ¬ IsRepeat log cond req.events := fun h => hu h.2.2.2
                  rw [if_neg hu, if_neg hrep]
              · rw [if_neg hlen]
                have hrep : ¬ IsRepeat log cond req.events := by
                  intro h
                  apply hlen
                  have := congrArg List.length h.2.2.2
                  simpa using this
                rw [if_neg hrep]
          · rw [h2]; right; left; exact ⟨rfl, 1, j, hj⟩
          · rw [h2]; right; right; exact ⟨e, rfl, hbad⟩
        · have hcond : ¬ (req.events.length =
              (req.events.filterMap (fun e => if e.uuid.isSome then some e.uuid else none)).length ∧
              req.events.length ≤ 2 ^ 32 - 1) := by
            intro h; exact hall ⟨hids.1.mp h.1, by omega⟩
          rw [if_neg hcond]
          left
          have hemp : req.events ≠ [] := by
            intro h; apply hall; simp [h]
          rw [if_neg hemp]
          have hrep : ¬ IsRepeat log cond req.events := fun h => hall ⟨h.2.1, h.2.2.1⟩
          rw [if_neg hrep]
    · rw [h]; right; left; exact ⟨rfl, 0, j, hj⟩
    · rw [h]; right; right; exact ⟨e, rfl, hbad⟩

variable {B : Backend δ σ υ ι} {H : String → TagHash} {valid : Record → Prop}

theorem validateAll_spec (L : Workable B H valid) (rs : List Record) :
    ((∀ r ∈ rs, valid r) ∧ ∃ vs, validateAll B rs = .ok vs ∧ vs.map (·.1) = rs ∧
      ∀ x ∈ vs, B.validate x.1 = .ok x.2) ∨
    (¬ (∀ r ∈ rs, valid r) ∧ ∃ m, validateAll B rs = .error (.invalidArgument m)) := by
  induction rs with
  | nil => left; simp [validateAll]
  | cons r rs ih =>
    rcases L.validate r with ⟨hv, v, h⟩ | ⟨hv, m, h⟩
    · rcases ih with ⟨h1, vs, h2, h3, h4⟩ | ⟨h1, m, h2⟩
      · left
        refine ⟨by simp [hv, h1]; exact h1, (r, v) :: vs, ?_, ?_, ?_⟩
        · simp [validateAll, h, h2]
        · simp [h3]
        · intro x hx
          rcases List.mem_cons.mp hx with e | hx
          · subst e; exact h
          · exact h4 x hx
      · right
        refine ⟨fun h => h1 (fun r hr => h r (by simp [hr])), m, ?_⟩
        simp [validateAll, h, h2]
    · right
      refine ⟨fun h => hv (h r (by simp)), m, ?_⟩
      simp [validateAll, h]

theorem insertTags_spec (L : Workable B H valid) (p : Nat) (ts : List String) :
    ∀ {w s0 a}, L.Rep w s0 a → p = a.log.length + 1 → a.next = p + 1 →
    (∃ w', insertTags B H p ts w = (.ok (), w') ∧
      L.Rep w' s0 { a with idx := fun h' => a.idx h' ++ (ts.filter fun t => decide (H t = h')).map fun _ => p }) ∨
    ∃ e w', insertTags B H p ts w = (.error e, w') ∧ L.Fails e := by
  induction ts with
  | nil =>
    intro w s0 a hw _ _
    left; refine ⟨w, rfl, ?_⟩
    simpa using hw
  | cons t ts ih =>
    intro w s0 a hw hp hn
    simp only [insertTags]
    rcases L.tagInsert (H t) p ⟨t, rfl⟩ hw hp hn with ⟨w1, h1, hw1⟩ | ⟨e, w1, h1, he⟩
    · rw [h1]
      rcases ih hw1 hp hn with ⟨w2, h2, hw2⟩ | h
      · left
        refine ⟨w2, h2, ?_⟩
        have : (fun h' => (if h' = H t then a.idx h' ++ [p] else a.idx h') ++ (ts.filter fun t => decide (H t = h')).map fun _ => p) =
            fun h' => a.idx h' ++ ((t :: ts).filter fun t => decide (H t = h')).map fun _ => p := by
          funext h'
          by_cases e : h' = H t
          · subst e
            simp
          · rw [if_neg e, List.filter_cons_of_neg (by simpa using fun h => e h.symm)]
        rw [← this]; exact hw2
      · right; exact h
    · rw [h1]; right; exact ⟨e, w1, rfl, he⟩

theorem idxOf_append (H : String → TagHash) (log : Log) (r : Record) :
    idxOf H (log ++ [r]) = fun h' => idxOf H log h' ++ (r.event.tags.filter fun t => decide (H t = h')).map fun _ => log.length + 1 := by
  funext h'
  simp only [idxOf, numberFrom_append, List.flatMap_append, numberFrom, List.flatMap_cons, List.flatMap_nil, List.append_nil,
    Nat.add_comm 1]

theorem appendValues_spec (L : Workable B H valid) (vs : List (Record × υ)) :
    ∀ {w s0 s} (last : Nat), L.Rep w s0 (Abs.of H s) → (∀ x ∈ vs, B.validate x.1 = .ok x.2) →
    (∃ w', appendValues B H vs last w =
        (.ok (if vs = [] then last else s.log.length + vs.length), w') ∧
      L.Rep w' s0 (Abs.of H ⟨s.log ++ vs.map (·.1), s.track⟩)) ∨
    ∃ e w', appendValues B H vs last w = (.error e, w') ∧ L.Fails e := by
  induction vs with
  | nil =>
    intro w s0 s last hw _
    left; refine ⟨w, rfl, ?_⟩
    simpa using hw
  | cons x vs ih =>
    obtain ⟨r, v⟩ := x
    intro w s0 s last hw hv
    obtain ⟨hi1, hi2⟩ := L.issue hw
    simp only [appendValues]
    have hp : (B.issue w).1 = s.log.length + 1 := hi1
    rcases insertTags_spec L (B.issue w).1 r.event.tags hi2 hp (by simp [Abs.of, hp]) with
      ⟨w2, h2, hw2⟩ | ⟨e, w2, h2, he⟩
    · rw [h2]
      simp only
      rcases L.eventAppend r v (B.issue w).1 hw2 (hv (r, v) (by simp)) hp (by simp [Abs.of, hp]) with
        ⟨w3, h3, hw3⟩ | ⟨e, w3, h3, he⟩
      · rw [h3]
        simp only
        have hw3' : L.Rep w3 s0 (Abs.of H ⟨s.log ++ [r], s.track⟩) := by
          have e : (Abs.of H ⟨s.log ++ [r], s.track⟩) = { Abs.of H s with
              next := (Abs.of H s).next + 1
              idx := fun h' => idxOf H s.log h' ++ (r.event.tags.filter fun t => decide (H t = h')).map fun _ => (B.issue w).1
              log := s.log ++ [r] } := by
            simp only [Abs.of, idxOf_append, hp, List.length_append, List.length_singleton]
          rw [e]
          exact hw3
        rcases ih (B.issue w).1 hw3' (fun x hx => hv x (by simp [hx])) with ⟨w4, h4, hw4⟩ | h
        · left
          refine ⟨w4, ?_, ?_⟩
          · rw [h4]
            simp only [hp, reduceCtorEq, if_false, List.length_append, List.length_singleton,
              List.length_cons]
            by_cases hvs : vs = []
            · simp [hvs]
            · simp [hvs]; omega
          · simpa using hw4
        · right; exact h
      · rw [h3]; right; exact ⟨e, w3, rfl, he⟩
    · rw [h2]; right; exact ⟨e, w2, rfl, he⟩

theorem applyRequest_spec (L : Workable B H valid) {w : σ} {s0 s : Spec.Db} (hw : L.Rep w s0 (Abs.of H s))
    (tr : Option Tracking) (vs : List (Record × υ)) (hv : ∀ x ∈ vs, B.validate x.1 = .ok x.2) :
    let log' := s.log ++ vs.map (·.1)
    let pos := if vs = [] then 0 else log'.length
    (match tr with
     | none => ∃ w', applyRequest B H tr vs w = (.ok pos, w') ∧ L.Rep w' s0 (Abs.of H ⟨log', s.track⟩)
     | some t =>
        if 255 < t.source.utf8ByteSize then
          ∃ m w', applyRequest B H tr vs w = (.error (.invalidArgument m), w') ∧ L.Rep w' s0 (Abs.of H s)
        else if ∃ p ∈ s.track t.source, t.position ≤ p then
          ∃ m w', applyRequest B H tr vs w = (.error (.integrity m), w') ∧ L.Rep w' s0 (Abs.of H s)
        else ∃ w', applyRequest B H tr vs w = (.ok pos, w') ∧
          L.Rep w' s0 (Abs.of H ⟨log', setTrack s.track t⟩)) ∨
    ∃ e w', applyRequest B H tr vs w = (.error e, w') ∧ L.Fails e := by
  intro log' pos
  have happ : ∀ {w : σ} {s : Spec.Db}, L.Rep w s0 (Abs.of H s) →
      (∃ w', (if vs.isEmpty then (.ok 0, w) else appendValues B H vs 0 w : Except Err Nat × σ) =
        (.ok (if vs = [] then 0 else (s.log ++ vs.map (·.1)).length), w') ∧
        L.Rep w' s0 (Abs.of H ⟨s.log ++ vs.map (·.1), s.track⟩)) ∨
      ∃ e w', (if vs.isEmpty then (.ok 0, w) else appendValues B H vs 0 w : Except Err Nat × σ) =
        (.error e, w') ∧ L.Fails e := by
    intro w s hw
    by_cases hvs : vs = []
    · left; refine ⟨w, ?_⟩; subst hvs; simpa using hw
    · rcases appendValues_spec L vs 0 hw hv with ⟨w', h1, h2⟩ | h
      · left; refine ⟨w', ?_, h2⟩; simp [hvs, h1]
      · right; simpa [hvs] using h
  cases tr with
  | none => exact happ hw
  | some t =>
    simp only [applyRequest]
    rcases L.trackUpsert t.source t.position hw with this | ⟨e, w1, h, he⟩
    · by_cases h1 : 255 < t.source.utf8ByteSize
      · rw [if_pos h1] at this ⊢
        left
        obtain ⟨m, w', h, hw'⟩ := this
        exact ⟨m, w', by rw [h], hw'⟩
      · rw [if_neg h1] at this ⊢
        by_cases h2 : ∃ p ∈ s.track t.source, t.position ≤ p
        · rw [if_pos h2]
          rw [if_pos (show ∃ p ∈ (Abs.of H s).track t.source, t.position ≤ p from h2)] at this
          left
          obtain ⟨m, w', h, hw'⟩ := this
          exact ⟨m, w', by rw [h], hw'⟩
        · rw [if_neg h2]
          rw [if_neg (show ¬ ∃ p ∈ (Abs.of H s).track t.source, t.position ≤ p from h2)] at this
          obtain ⟨w1, h, hw1⟩ := this
          rw [h]
          simp only
          exact happ (s := ⟨s.log, setTrack s.track t⟩) hw1
    · rw [h]; right; exact ⟨e, w1, rfl, he⟩

/-- An empty request whose condition is violated: the case in which the code panics. -/
def PanicCase (s : Spec.Db) (req : Request) : Prop :=
  req.events = [] ∧ ∃ c ∈ req.condition, violations s.log c ≠ []

theorem Workable.processAppend_spec [DecidablePred valid] {env : Env} (he : EnvOk env) (L : Workable B env.H valid)
    {w : σ} {s0 s : Spec.Db} (hw : L.Rep w s0 (Abs.of env.H s)) {req : Request} (ha : AfterOk req)
    (hq : ∀ c ∈ req.condition, L.Asks c.failIfEventsMatch) (c : Nat → Cancel) :
    (¬ PanicCase s req ∧ ∃ r w', processAppend B env req c w = (r, w') ∧
        Says r (Spec.append valid s req).1 ∧
        L.Rep w' s0 (Abs.of env.H (Spec.append valid s req).2) ∧
        ((Spec.append valid s req).2 = s ∨ ∃ p, r = .ok p)) ∨
    (∃ e w', processAppend B env req c w = (.error e, w') ∧ Fatal e ∧
      (L.Fails e ∨ e = .cancelledByUser ∧ ∃ i j, c i j = true)) ∨
    (PanicCase s req ∧ ∃ m, processAppend B env req c w = (.error (.panic m), w)) := by
  unfold processAppend
  rcases checkCondition_spec he (fun c hc => L.checks hw (hq c hc)) ha c with h | ⟨h, i, j, hj⟩ | ⟨e, h, hbad⟩
  · rw [h]
    unfold Spec.append
    cases hb : (req.condition.bind fun c => if violations s.log c = [] then none else some c) with
    | some cond =>
      have hbc : cond ∈ req.condition ∧ violations s.log cond ≠ [] := by
        cases hc : req.condition with
        | none => simp [hc] at hb
        | some c0 =>
          simp only [hc, Option.bind_some] at hb
          split at hb
          · cases hb
          · cases hb; exact ⟨rfl, by assumption⟩
      by_cases hemp : req.events = []
      · right; right
        exact ⟨⟨hemp, cond, hbc.1, hbc.2⟩, _, by simp [hemp]; rfl⟩
      · left
        refine ⟨fun h => hemp h.1, ?_⟩
        by_cases hrep : IsRepeat s.log cond req.events
        · simp only [hemp, hrep, if_true, if_false]
          exact ⟨_, w, rfl, rfl, hw, Or.inl trivial⟩
        · simp only [hemp, hrep, if_false]
          exact ⟨_, w, rfl, trivial, hw, Or.inl trivial⟩
    | none =>
      have hnp : ¬ PanicCase s req := by
        rintro ⟨_, c0, hc0, hv0⟩
        have hc0 : req.condition = some c0 := hc0
        simp [hc0, hv0] at hb
      simp only
      have hrecs : recordsOf req = req.events.map fun e => ⟨e, req.tracking⟩ := rfl
      rcases validateAll_spec L (recordsOf req) with ⟨hv, vs, h1, h2, h3⟩ | ⟨hv, m, h1⟩
      · rw [← hrecs, h1]
        simp only
        rw [if_neg (not_not_intro hv)]
        have hvs : vs = [] ↔ req.events = [] := by
          have := congrArg List.length h2
          simp [recordsOf] at this
          rw [← List.length_eq_zero_iff, ← List.length_eq_zero_iff, this]
        have hpos : (if vs = [] then 0 else (s.log ++ vs.map (·.1)).length) =
            (if req.events = [] then 0 else (s.log ++ recordsOf req).length) := by
          rw [h2]; simp only [hvs]
        rcases applyRequest_spec L hw req.tracking vs h3 with h | ⟨e, w', h, hfe⟩
        · left
          refine ⟨hnp, ?_⟩
          rw [hpos, h2] at h
          cases htr : req.tracking with
          | none =>
            rw [htr] at h
            obtain ⟨w', h, hw'⟩ := h
            exact ⟨_, w', h, rfl, hw', Or.inr ⟨_, rfl⟩⟩
          | some t =>
            rw [htr] at h
            simp only at h ⊢
            by_cases c1 : 255 < t.source.utf8ByteSize
            · simp only [if_pos c1] at h ⊢
              obtain ⟨m, w', h, hw'⟩ := h
              exact ⟨_, w', h, trivial, hw', Or.inl trivial⟩
            · simp only [if_neg c1] at h ⊢
              by_cases c2 : ∃ p ∈ s.track t.source, t.position ≤ p
              · simp only [if_pos c2] at h ⊢
                obtain ⟨m, w', h, hw'⟩ := h
                exact ⟨_, w', h, trivial, hw', Or.inl trivial⟩
              · simp only [if_neg c2] at h ⊢
                obtain ⟨w', h, hw'⟩ := h
                exact ⟨_, w', h, rfl, hw', Or.inr ⟨_, rfl⟩⟩
        · right; left; exact ⟨e, w', h, L.fails hfe, .inl hfe⟩
      · left
        refine ⟨hnp, ?_⟩
        rw [← hrecs, h1, if_pos hv]
        exact ⟨_, w, rfl, trivial, hw, Or.inl rfl⟩
  · rw [h]; right; left
    exact ⟨_, w, rfl, ⟨rfl, rfl, rfl⟩, .inr ⟨rfl, i, j, hj⟩⟩
  · rw [h]; right; left
    exact ⟨e, w, rfl, L.fails hbad, .inl hbad⟩

theorem processAppend_spec [DecidablePred valid] {env : Env} (he : EnvOk env) (L : Lawful B env.H valid)
    {w : σ} {s0 s : Spec.Db} (hw : L.Rep w s0 (Abs.of env.H s)) {req : Request} (ha : AfterOk req)
    (c : Nat → Cancel) :
    (¬ PanicCase s req ∧ ∃ r w', processAppend B env req c w = (r, w') ∧
        Says r (Spec.append valid s req).1 ∧
        L.Rep w' s0 (Abs.of env.H (Spec.append valid s req).2) ∧
        ((Spec.append valid s req).2 = s ∨ ∃ p, r = .ok p)) ∨
    (∃ e w', processAppend B env req c w = (.error e, w') ∧ Fatal e ∧
      (L.Fails e ∨ e = .cancelledByUser ∧ ∃ i j, c i j = true)) ∨
    (PanicCase s req ∧ ∃ m, processAppend B env req c w = (.error (.panic m), w)) :=
  L.toWorkable.processAppend_spec he hw ha (fun _ _ => L.asks _) c

end Uma.Db
