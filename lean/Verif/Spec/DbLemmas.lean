import Verif.Spec.Db

/-! Consequences of the specification of appending. -/

namespace Uma.Spec

variable {valid : Record → Prop} [DecidablePred valid]

inductive AppendCase (valid : Record → Prop) (s : Db) (req : Request) : Outcome × Db → Prop
  | took : (∀ c ∈ req.condition, violations s.log c = []) → (∀ r ∈ recordsOf req, valid r) →
      (∀ t ∈ req.tracking, t.source.utf8ByteSize ≤ 255 ∧ ∀ p ∈ s.track t.source, p < t.position) →
      AppendCase valid s req (.ok (if req.events = [] then 0 else s.log.length + req.events.length), effect s req)
  | repeated (c : Condition) : req.condition = some c → violations s.log c ≠ [] → IsRepeat s.log c req.events →
      AppendCase valid s req (.ok (repeatPosition s.log c req.events), s)
  | conflict (c : Condition) : req.condition = some c → violations s.log c ≠ [] → ¬ IsRepeat s.log c req.events →
      AppendCase valid s req (.refusedIntegrity, s)
  | invalid : (∀ c ∈ req.condition, violations s.log c = []) → ¬ (∀ r ∈ recordsOf req, valid r) →
      AppendCase valid s req (.refusedArgument, s)
  | longSource (t : Tracking) : (∀ c ∈ req.condition, violations s.log c = []) → req.tracking = some t →
      255 < t.source.utf8ByteSize → AppendCase valid s req (.refusedArgument, s)
  | notIncreasing (t : Tracking) (p : Nat) : (∀ c ∈ req.condition, violations s.log c = []) →
      req.tracking = some t → s.track t.source = some p → t.position ≤ p →
      AppendCase valid s req (.refusedIntegrity, s)

theorem append_case (s : Db) (req : Request) : AppendCase valid s req (append valid s req) := by
  unfold append
  cases hb : (req.condition.bind fun c => if violations s.log c = [] then none else some c) with
  | some c =>
    have hc : req.condition = some c ∧ violations s.log c ≠ [] := by
      cases hc : req.condition with
      | none => simp [hc] at hb
      | some c0 =>
        simp only [hc, Option.bind_some] at hb
        split at hb
        · cases hb
        · cases hb; exact ⟨rfl, by assumption⟩
    simp only
    split
    · exact .repeated c hc.1 hc.2 (by assumption)
    · exact .conflict c hc.1 hc.2 (by assumption)
  | none =>
    have hc : ∀ c ∈ req.condition, violations s.log c = [] := by
      intro c h
      have h : req.condition = some c := h
      simpa [h] using hb
    simp only
    split
    · exact .invalid hc (by assumption)
    · rename_i hv
      have hv := Decidable.not_not.mp hv
      have hpos : (if req.events = [] then 0 else (s.log ++ recordsOf req).length) =
          (if req.events = [] then 0 else s.log.length + req.events.length) := by
        simp [recordsOf]
      rw [hpos]
      cases ht : req.tracking with
      | none =>
        have : (⟨s.log ++ recordsOf req, s.track⟩ : Db) = effect s req := by simp [effect, ht]
        simp only
        rw [this]
        exact .took hc hv (by simp [ht])
      | some t =>
        simp only
        split
        · exact .longSource t hc ht (by assumption)
        · split
          · rename_i h
            obtain ⟨p, hp, hle⟩ := h
            exact .notIncreasing t p hc ht hp hle
          · rename_i h1 h2
            have : (⟨s.log ++ recordsOf req, setTrack s.track t⟩ : Db) = effect s req := by simp [effect, ht]
            rw [this]
            refine .took hc hv ?_
            intro t' ht'
            have : t' = t := by
              have ht' : req.tracking = some t' := ht'
              rw [ht] at ht'; cases ht'; rfl
            subst this
            refine ⟨by omega, fun p hp => ?_⟩
            by_cases h : t'.position ≤ p
            · exact absurd ⟨p, hp, h⟩ h2
            · omega

theorem conflict_iff {log : Log} {c : Condition} : Conflict log c ↔ violations log c ≠ [] := by
  simp only [Conflict, violations, ne_eq, List.filter_eq_nil_iff, Bool.and_eq_true, decide_eq_true_eq,
    Option.all_eq_true]
  constructor
  · rintro ⟨e, he, h1, h2⟩ h
    exact h e he ⟨fun a ha => h1 a ha, h2⟩
  · intro h
    apply Classical.byContradiction
    intro hn
    exact h (fun e he hh => hn ⟨e, he, fun a ha => hh.1 a ha, hh.2⟩)

/-- `appendAll` as a history. -/
theorem appendAll_trace (s : Db) (reqs : List Request) (as : List (Except Err Nat))
    (h : SaysAll as (appendAll valid s reqs).1) :
    ∃ tr, tr.map (·.1) = reqs ∧ tr.map (·.2.1) = as ∧
      ∀ {tr' s'}, Trace valid (appendAll valid s reqs).2 tr' s' → Trace valid s (tr ++ tr') s' := by
  induction reqs generalizing s as with
  | nil =>
    cases as with
    | nil => exact ⟨[], rfl, rfl, fun h => h⟩
    | cons a as => simp [appendAll, SaysAll] at h
  | cons r reqs ih =>
    cases as with
    | nil => simp [appendAll, SaysAll] at h
    | cons a as =>
      simp only [appendAll, SaysAll] at h ⊢
      obtain ⟨tr, h1, h2, h3⟩ := ih (append valid s r).2 as h.2
      have hcase := append_case (valid := valid) s r
      generalize append valid s r = x at hcase h h3 ⊢
      have hs := h.1
      cases hcase with
      | took hc hv ht =>
        refine ⟨(r, a, true) :: tr, by simp [h1], by simp [h2], fun {tr' s'} htr => ?_⟩
        refine .took hc hv (fun t h p hp => (ht t h).2 p hp) ?_ (h3 htr)
        cases a with
        | error e => cases e <;> simp [Says] at hs
        | ok p =>
          simp only [Says] at hs
          by_cases he : r.events = []
          · right; left; simp [he] at hs; exact ⟨he, by rw [hs]⟩
          · left; simp [he] at hs; exact ⟨he, by rw [hs]⟩
      | repeated c hc hv hr =>
        refine ⟨(r, a, false) :: tr, by simp [h1], by simp [h2], fun {tr' s'} htr => ?_⟩
        refine .not ?_ (h3 htr)
        cases a with
        | error e => cases e <;> simp [Says] at hs
        | ok p => simp only [Says] at hs; right; exact ⟨c, hc, hr, by rw [hs]⟩
      | _ =>
        refine ⟨(r, a, false) :: tr, by simp [h1], by simp [h2], fun {tr' s'} htr => ?_⟩
        refine .not ?_ (h3 htr)
        cases a with
        | error e => exact Or.inl ⟨e, rfl⟩
        | ok p => simp [Says] at hs

omit [DecidablePred valid] in
/-- A batch every client was told had failed, whether or not it happened. -/
theorem failed_trace (s : Db) (reqs : List Request) (as : List (Except Err Nat)) (hl : as.length = reqs.length)
    (hf : ∀ a ∈ as, Failure a) :
    ∃ tr, tr.map (·.1) = reqs ∧ tr.map (·.2.1) = as ∧
      ∀ {tr' s'}, Trace valid s tr' s' → Trace valid s (tr ++ tr') s' := by
  induction reqs generalizing as with
  | nil =>
    have : as = [] := List.eq_nil_of_length_eq_zero (by simpa using hl)
    subst this
    exact ⟨[], rfl, rfl, fun h => h⟩
  | cons r reqs ih =>
    cases as with
    | nil => simp at hl
    | cons a as =>
      obtain ⟨tr, h1, h2, h3⟩ := ih as (by simpa using hl) (fun a ha => hf a (by simp [ha]))
      refine ⟨(r, a, false) :: tr, by simp [h1], by simp [h2], fun htr => .not ?_ (h3 htr)⟩
      have := hf a (by simp)
      cases a with
      | ok p => exact absurd this id
      | error e => exact Or.inl ⟨e, rfl⟩

theorem failedLate_trace (s : Db) (reqs : List Request) (as : List (Except Err Nat)) (hl : as.length = reqs.length)
    (hf : ∀ a ∈ as, Failure a) :
    ∃ tr, tr.map (·.1) = reqs ∧ tr.map (·.2.1) = as ∧
      ∀ {tr' s'}, Trace valid (appendAll valid s reqs).2 tr' s' → Trace valid s (tr ++ tr') s' := by
  induction reqs generalizing s as with
  | nil =>
    have : as = [] := List.eq_nil_of_length_eq_zero (by simpa using hl)
    subst this
    exact ⟨[], rfl, rfl, fun h => h⟩
  | cons r reqs ih =>
    cases as with
    | nil => simp at hl
    | cons a as =>
      simp only [appendAll]
      obtain ⟨tr, h1, h2, h3⟩ := ih (append valid s r).2 as (by simpa using hl) (fun a ha => hf a (by simp [ha]))
      have hfa := hf a (by simp)
      have herr : ∃ e, a = .error e := by
        cases a with
        | ok p => exact absurd hfa id
        | error e => exact ⟨e, rfl⟩
      have hcase := append_case (valid := valid) s r
      generalize append valid s r = x at hcase h3 ⊢
      cases hcase with
      | took hc hv ht =>
        exact ⟨(r, a, true) :: tr, by simp [h1], by simp [h2], fun {tr' s'} htr =>
          .took hc hv (fun t h p hp => (ht t h).2 p hp) (Or.inr (Or.inr hfa)) (h3 htr)⟩
      | _ =>
        exact ⟨(r, a, false) :: tr, by simp [h1], by simp [h2], fun {tr' s'} htr =>
          .not (Or.inl herr) (h3 htr)⟩

/-- Served requests form a history. -/
theorem served_trace {s s' : Db} {js : List (Nat × Request)} {as : List (Nat × Except Err Nat)}
    {hs : List (Option Nat)} (h : Served valid s js as hs s') :
    ∃ tr, tr.map (·.1) = js.map (·.2) ∧ tr.map (·.2.1) = as.map (·.2) ∧ Trace valid s tr s' := by
  induction h with
  | done => exact ⟨[], rfl, rfl, .nil⟩
  | committed h1 h2 _ ih =>
    obtain ⟨tr', i1, i2, i3⟩ := ih
    obtain ⟨tr, j1, j2, j3⟩ := appendAll_trace _ _ _ h2
    exact ⟨tr ++ tr', by simp [i1, j1], by simp [i2, j2], j3 i3⟩
  | failed h1 h2 _ ih =>
    rename_i js as _ _ _ _ _
    obtain ⟨tr', i1, i2, i3⟩ := ih
    obtain ⟨tr, j1, j2, j3⟩ := failed_trace (valid := valid) _ (js.map (·.2)) (as.map (·.2))
      (by have := congrArg List.length h1; simpa using this)
      (by intro a ha; obtain ⟨x, hx, rfl⟩ := List.mem_map.mp ha; exact h2 x hx)
    exact ⟨tr ++ tr', by simp [i1, j1], by simp [i2, j2], j3 i3⟩
  | failedLate h1 h2 _ ih =>
    rename_i js as _ _ _ _ _
    obtain ⟨tr', i1, i2, i3⟩ := ih
    obtain ⟨tr, j1, j2, j3⟩ := failedLate_trace (valid := valid) _ (js.map (·.2)) (as.map (·.2))
      (by have := congrArg List.length h1; simpa using this)
      (by intro a ha; obtain ⟨x, hx, rfl⟩ := List.mem_map.mp ha; exact h2 x hx)
    exact ⟨tr ++ tr', by simp [i1, j1], by simp [i2, j2], j3 i3⟩

omit [DecidablePred valid]

theorem trace_log {s s' : Db} {tr} (h : Trace valid s tr s') :
    s'.log = s.log ++ (tookEffect tr).flatMap recordsOf := by
  induction h with
  | nil => simp [tookEffect]
  | took _ _ _ _ _ ih => rw [ih]; simp [effect, tookEffect]
  | not _ _ ih => rw [ih]; simp [tookEffect]

/-- Value of the last update of a source. -/
def lastUpdate (reqs : List Request) (src : String) : Option Nat :=
  ((reqs.filterMap (·.tracking)).filter (·.source = src)).getLast?.map (·.position)

theorem trace_track {s s' : Db} {tr} (h : Trace valid s tr s') (src : String) :
    s'.track src = ((lastUpdate (tookEffect tr) src).or (s.track src)) := by
  induction h with
  | nil => simp [tookEffect, lastUpdate]
  | @took s req a tr s' _ _ _ _ _ ih =>
    rw [ih]
    have e : tookEffect ((req, a, true) :: tr) = req :: tookEffect tr := by simp [tookEffect]
    rw [e]
    cases ht : req.tracking with
    | none => simp [lastUpdate, ht, effect]
    | some t =>
      simp only [lastUpdate, List.filterMap_cons, ht, effect, setTrack]
      by_cases hsrc : t.source = src
      · subst hsrc
        simp only [List.filter_cons, decide_true, if_true]
        generalize ((tookEffect tr).filterMap (·.tracking)).filter (fun x => decide (x.source = t.source)) = l
        cases l with
        | nil => simp
        | cons x l =>
          rw [List.getLast?_cons_cons]
          rw [List.getLast?_eq_some_getLast (l := x :: l) (by simp)]
          simp
      · have : ¬ src = t.source := fun h => hsrc h.symm
        simp [hsrc, this]
  | not _ _ ih => rw [ih]; simp [tookEffect]

theorem trace_monotone {s s' : Db} {tr} (h : Trace valid s tr s') {src : String} {p : Nat}
    (hp : s.track src = some p) : ∃ p', s'.track src = some p' ∧ p ≤ p' := by
  induction h generalizing p with
  | nil => exact ⟨p, hp, Nat.le_refl _⟩
  | @took s req a tr s' _ _ ht _ _ ih =>
    cases htr : req.tracking with
    | none => exact ih (by simpa [effect, htr] using hp)
    | some t =>
      by_cases hsrc : src = t.source
      · subst hsrc
        have := ht t htr p hp
        obtain ⟨p', h1, h2⟩ := ih (p := t.position) (by simp [effect, htr, setTrack])
        exact ⟨p', h1, by omega⟩
      · exact ih (by simpa [effect, htr, setTrack, hsrc] using hp)
  | not _ _ ih => exact ih hp

end Uma.Spec
