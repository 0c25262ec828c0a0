import Verif.Spec.DbLemmas
import Verif.Db.ThreadProof

/-! Lemmas about the direct API `append`, used by the property files. -/

set_option linter.unusedSimpArgs false

namespace Uma.Db
open Uma.Spec

variable {δ σ υ ι : Type} {B : Backend δ σ υ ι} {valid : Record → Prop} [DecidablePred valid]

theorem Workable.api_append_spec {env : Env} (he : EnvOk env) (L : Workable B env.H valid) {d : δ} {s : Spec.Db}
    (hd : L.RepD d s) {req : Request} (ha : AfterOk req) (hne : req.events ≠ [])
    (hq : ∀ c ∈ req.condition, L.Asks c.failIfEventsMatch) (i : ι) :
    (Says (Db.append B env req i d).1 (Spec.append valid s req).1 ∧
      L.RepD (Db.append B env req i d).2 (Spec.append valid s req).2) ∨
    (∃ e, (Db.append B env req i d).1 = .error e ∧ Fatal e ∧
      (L.RepD (Db.append B env req i d).2 s ∨
        L.RepD (Db.append B env req i d).2 (Spec.append valid s req).2)) := by
  unfold Db.append
  rw [if_neg hne]
  rcases L.begin hd with ⟨w, hb, hw⟩ | ⟨e, hb, hf⟩
  · rw [hb]
    simp only
    rcases L.processAppend_spec he hw ha hq (fun _ => Cancel.never) with
      ⟨_, r, w', h, hs, hr, hun⟩ | ⟨e, w', h, hf, -⟩ | ⟨hp, m, h⟩
    · rw [h]
      cases r with
      | ok p =>
        simp only
        rcases L.commit i hr with ⟨d', hc, hd'⟩ | ⟨e, d', hc, hf, hd'⟩
        · rw [hc]; exact Or.inl ⟨hs, hd'⟩
        · rw [hc]; exact Or.inr ⟨e, rfl, hf, hd'⟩
      | error e =>
        simp only
        left
        refine ⟨hs, ?_⟩
        rcases hun with h | ⟨p, h⟩
        · rw [h]; exact hd
        · cases h
    · rw [h]; right; exact ⟨e, rfl, hf, Or.inl hd⟩
    · exact absurd hp.1 hne
  · rw [hb]; right; exact ⟨e, rfl, L.fails hf, Or.inl hd⟩

theorem api_append_spec {env : Env} (he : EnvOk env) (L : Lawful B env.H valid) {d : δ} {s : Spec.Db}
    (hd : L.RepD d s) {req : Request} (ha : AfterOk req) (hne : req.events ≠ []) (i : ι) :
    (Says (Db.append B env req i d).1 (Spec.append valid s req).1 ∧
      L.RepD (Db.append B env req i d).2 (Spec.append valid s req).2) ∨
    (∃ e, (Db.append B env req i d).1 = .error e ∧ Fatal e ∧
      (L.RepD (Db.append B env req i d).2 s ∨
        L.RepD (Db.append B env req i d).2 (Spec.append valid s req).2)) :=
  L.toWorkable.api_append_spec he hd ha hne (fun _ _ => L.asks _) i

omit [DecidablePred valid] in
theorem violations_append (log l : Log) (c : Condition) :
    violations (log ++ l) c = violations log c ++
      ((numberFrom (log.length + 1) l).map toSeq).filter fun e =>
        c.after.all (fun a => decide (a < e.position)) && decide (Matches c.failIfEventsMatch e.event) := by
  simp only [violations, sequenced, numberFrom_append, List.map_append, List.filter_append]
  rw [Nat.add_comm]

theorem take_of_prefix {α} {l l' : List α} (n : Nat) (h : n ≤ l.length) : (l ++ l').take n = l.take n := by
  rw [List.take_append_of_le_length h]

/-- Once a repeat, always the same repeat, however the log grows. -/
theorem isRepeat_mono {log l : Log} {c : Condition} {evs : List Event} (h : IsRepeat log c evs) :
    IsRepeat (log ++ l) c evs ∧ repeatPosition (log ++ l) c evs = repeatPosition log c evs := by
  obtain ⟨h1, h2, h3, h4⟩ := h
  have hlen : evs.length ≤ (violations log c).length := by
    have := congrArg List.length h4
    simp at this; omega
  have ht : (violations (log ++ l) c).take evs.length = (violations log c).take evs.length := by
    rw [violations_append, take_of_prefix _ hlen]
  exact ⟨⟨h1, h2, h3, by rw [ht]; exact h4⟩, by simp [repeatPosition, ht]⟩

/-- After an append that took effect, its own events are the violations. -/
theorem repeat_after_append {log l : Log} {c : Condition} {evs : List Event} {tr : Option Tracking}
    (hv : violations log c = []) (hne : evs ≠ []) (hu : ∀ e ∈ evs, e.uuid.isSome) (hn : evs.length < 2 ^ 32)
    (hm : ∀ e ∈ evs, Matches c.failIfEventsMatch e) (ha : ∀ a ∈ c.after, a ≤ log.length) :
    IsRepeat (log ++ evs.map (fun e => ⟨e, tr⟩) ++ l) c evs ∧
    repeatPosition (log ++ evs.map (fun e => ⟨e, tr⟩) ++ l) c evs = log.length + evs.length := by
  have hself : violations (log ++ evs.map (fun e => ⟨e, tr⟩)) c =
      (numberFrom (log.length + 1) (evs.map (fun e => (⟨e, tr⟩ : Record)))).map toSeq := by
    rw [violations_append, hv, List.nil_append, List.filter_eq_self]
    intro x hx
    obtain ⟨⟨p, r⟩, hp, rfl⟩ := List.mem_map.mp hx
    obtain ⟨hp1, hp2⟩ := mem_numberFrom.mp hp
    obtain ⟨e, he, rfl⟩ := List.mem_map.mp (List.mem_of_getElem? hp2)
    simp only [Bool.and_eq_true, decide_eq_true_eq, Option.all_eq_true]
    exact ⟨fun a haa => by have := ha a haa; show a < p; omega, hm e he⟩
  have hlen : (violations (log ++ evs.map (fun e => ⟨e, tr⟩)) c).length = evs.length := by
    rw [hself]; simp
  have huu : ∀ n, ((numberFrom n (evs.map (fun e => (⟨e, tr⟩ : Record)))).map toSeq).map (·.event.uuid) =
      evs.map (·.uuid) := by
    clear hself hlen hne hu hn hm
    induction evs with
    | nil => intro n; rfl
    | cons e evs ih => intro n; simp [numberFrom, toSeq]; simpa using ih (n + 1)
  have hrep : IsRepeat (log ++ evs.map (fun e => ⟨e, tr⟩)) c evs :=
    ⟨hne, hu, hn, by rw [List.take_of_length_le (by omega), hself, huu]⟩
  refine ⟨(isRepeat_mono hrep).1, ?_⟩
  rw [(isRepeat_mono hrep).2, repeatPosition, List.take_of_length_le (by omega), hself]
  have hlast : ∀ (evs : List Event) n, evs ≠ [] →
      (((numberFrom n (evs.map (fun e => (⟨e, tr⟩ : Record)))).map toSeq).getLast?.map (·.position)) =
        some (n + evs.length - 1) := by
    intro evs
    induction evs with
    | nil => intro n h; exact absurd rfl h
    | cons e evs ih =>
      intro n _
      cases evs with
      | nil => simp [numberFrom, toSeq]
      | cons e' evs =>
        have := ih (n + 1) (by simp)
        simp only [List.map_cons, numberFrom] at this ⊢
        rw [List.getLast?_cons_cons]
        rw [this]; simp; omega
  rw [hlast evs _ hne]
  simp

end Uma.Db
