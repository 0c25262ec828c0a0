import Verif.Db.Batch
import Verif.Props.Append

/-!
# C71: `append_batch`
-/

namespace Uma.Props
open Uma.Spec Uma.Db

variable {δ σ υ ι : Type} {B : Backend δ σ υ ι} {valid : Record → Prop}

/-- While the loop runs over `done`, nothing has failed. -/
structure Going [DecidablePred valid] {H : String → TagHash} (L : Lawful B H valid) (s0 : Spec.Db) (done : List Request) (x : Items σ) : Prop where
  abort : x.abort = none
  len : x.results.length = done.length
  rep : L.Rep x.w s0 (Abs.of H (appendAll valid s0 done).2)
  told : SaysAll x.results (appendAll valid s0 done).1

/-- How the loop can end. -/
inductive Ended [DecidablePred valid] {H : String → TagHash} (L : Lawful B H valid) (s0 : Spec.Db) (reqs : List Request) : Except String (Items σ) → Prop
  | all {x} : Going L s0 reqs x → (∀ o ∈ (appendAll valid s0 reqs).1, o ≠ .refusedArgument) → Ended L s0 reqs (.ok x)
  /-- Request number `k` is the first that is not accepted or refused with an integrity error. -/
  | stop {x k e} : k < reqs.length → x.abort = some (k, e) → x.results.length = k + 1 → x.results[k]? = some (.error e) →
      SaysAll (x.results.take k) (appendAll valid s0 (reqs.take k)).1 →
      (Fatal e ∨ isInvalidArgumentError e = true ∧ (appendAll valid s0 reqs).1[k]? = some .refusedArgument) → Ended L s0 reqs (.ok x)
  | panic {m k r} : reqs[k]? = some r → PanicCase (appendAll valid s0 (reqs.take k)).2 r → Ended L s0 reqs (.error m)

section Loop
variable [DecidablePred valid]

theorem says_cases {e : Err} {o : Outcome} (h : Says (.error e) o) :
    (isIntegrityError e = true ∧ o = .refusedIntegrity) ∨ (isIntegrityError e = false ∧ isInvalidArgumentError e = true ∧ o = .refusedArgument) := by
  cases e <;> cases o <;> simp_all [Says, isIntegrityError, isInvalidArgumentError]

theorem appendAll_length (s : Spec.Db) (l : List Request) : (appendAll valid s l).1.length = l.length := by
  induction l generalizing s with
  | nil => rfl
  | cons r l ih => simp [appendAll, ih]

theorem loop_spec {env : Env} (he : EnvOk env) (L : Lawful B env.H valid) {s0 : Spec.Db} :
    ∀ (reqs done : List Request) (x : Items σ), Going L s0 done x → (∀ o ∈ (appendAll valid s0 done).1, o ≠ .refusedArgument) →
      (∀ r ∈ reqs, AfterOk r) → Ended L s0 (done ++ reqs) (runItems B env done.length reqs x)
  | [], done, x, hx, hok, _ => by
    rw [List.append_nil]
    exact .all hx hok
  | r :: reqs, done, x, hx, hok, ha => by
    have hsplit : done ++ r :: reqs = (done ++ [r]) ++ reqs := by simp
    have hall : appendAll valid s0 (done ++ [r]) = ((appendAll valid s0 done).1 ++ [(Spec.append valid (appendAll valid s0 done).2 r).1],
        (Spec.append valid (appendAll valid s0 done).2 r).2) := by
      rw [appendAll_append]; simp [appendAll]
    have htake : (done ++ r :: reqs).take done.length = done := by simp
    unfold runItems
    rw [hx.abort]
    simp only [Option.isSome_none, Bool.false_eq_true, if_false]
    unfold stepItem
    rcases processAppend_spec he L hx.rep (ha r (.head _)) (fun _ => Cancel.never) with ⟨-, q, w', h, hs, hr, -⟩ | ⟨e, w', h, hf, -⟩ | ⟨hp, m, h⟩
    · rw [h]
      cases q with
      | ok p =>
        dsimp only
        have := loop_spec he L reqs (done ++ [r]) ⟨w', x.results ++ [.ok p], x.abort⟩
          ⟨hx.abort, by simp [hx.len], by rw [hall]; exact hr, by rw [hall]; exact saysAll_append hx.told ⟨hs, trivial⟩⟩
          (by
            rw [hall]
            intro o ho
            simp only [List.mem_append, List.mem_singleton] at ho
            rcases ho with ho | rfl
            · exact hok o ho
            · intro hc; rw [hc] at hs; exact hs)
          (fun y hy => ha y (.tail _ hy))
        rw [hsplit]
        simpa using this
      | error e =>
        have hnp : ∀ m, e ≠ .panic m := by
          rintro m rfl
          generalize (Spec.append valid (appendAll valid s0 done).2 r).1 = o at hs
          cases o <;> exact hs
        rcases says_cases hs with ⟨hi, ho⟩ | ⟨hi, hv, ho⟩
        · have key : Ended L s0 (done ++ r :: reqs) (runItems B env (done.length + 1) reqs ⟨w', x.results ++ [.error e], x.abort⟩) := by
            have := loop_spec he L reqs (done ++ [r]) ⟨w', x.results ++ [.error e], x.abort⟩
              ⟨hx.abort, by simp [hx.len], by rw [hall]; exact hr, by rw [hall]; exact saysAll_append hx.told ⟨hs, trivial⟩⟩
              (by
                rw [hall]
                intro o ho'
                simp only [List.mem_append, List.mem_singleton] at ho'
                rcases ho' with ho' | rfl
                · exact hok o ho'
                · rw [ho]; intro hc; cases hc)
              (fun y hy => ha y (.tail _ hy))
            rw [hsplit]
            simpa using this
          cases e with
          | panic m => exact absurd rfl (hnp m)
          | integrity m => simpa [isIntegrityError] using key
          | _ => simp [isIntegrityError] at hi
        · have key : Ended L s0 (done ++ r :: reqs) (runItems B env (done.length + 1) reqs ⟨w', x.results ++ [.error e], some (done.length, e)⟩) := by
            have : runItems B env (done.length + 1) reqs ⟨w', x.results ++ [.error e], some (done.length, e)⟩ =
                .ok ⟨w', x.results ++ [.error e], some (done.length, e)⟩ := by
              cases reqs <;> simp [runItems]
            rw [this]
            refine .stop (k := done.length) (by simp) rfl (by simp [hx.len]) ?_ ?_ (.inr ⟨hv, ?_⟩)
            · simp [← hx.len]
            · rw [htake]
              simp only [← hx.len, List.take_left']
              exact hx.told
            · rw [hsplit, appendAll_append, hall]
              have := appendAll_length (valid := valid) s0 done
              rw [List.getElem?_append_left (by simp [this]), List.getElem?_append_right (by omega)]
              simp [this, ho]
          cases e with
          | panic m => exact absurd rfl (hnp m)
          | invalidArgument m => simpa [isIntegrityError] using key
          | _ => simp [isInvalidArgumentError] at hv
    · rw [h]
      have key : Ended L s0 (done ++ r :: reqs) (runItems B env (done.length + 1) reqs ⟨w', x.results ++ [.error e], some (done.length, e)⟩) := by
        have : runItems B env (done.length + 1) reqs ⟨w', x.results ++ [.error e], some (done.length, e)⟩ =
            .ok ⟨w', x.results ++ [.error e], some (done.length, e)⟩ := by
          cases reqs <;> simp [runItems]
        rw [this]
        refine .stop (k := done.length) (by simp) rfl (by simp [hx.len]) ?_ ?_ (.inl hf)
        · simp [← hx.len]
        · rw [htake]
          simp only [← hx.len, List.take_left']
          exact hx.told
      obtain ⟨f1, f2, f3⟩ := hf
      cases e with
      | panic m => simp [isPanic] at f3
      | integrity m => simp [isIntegrityError] at f1
      | _ => simpa [isIntegrityError] using key
    · rw [h]
      exact .panic (k := done.length) (r := r) (by simp) (by rw [htake]; exact hp)

end Loop

/-- What `append_batch` may return, and what the database then holds. -/
inductive Batched (valid : Record → Prop) [DecidablePred valid] (s : Spec.Db) (reqs : List Request) :
    Except Err (List (Except Err Nat)) → Spec.Db → Prop
  /-- All are answered as if they had been appended one after the other. -/
  | done {rs} : SaysAll rs (appendAll valid s reqs).1 → (∀ o ∈ (appendAll valid s reqs).1, o ≠ .refusedArgument) →
      Batched valid s reqs (.ok rs) (appendAll valid s reqs).2
  /-- One has an error that is not an integrity error; nothing is stored and all others have the same kind of error. -/
  | aborted {rs k e} : rs.length = reqs.length → k < reqs.length → rs[k]? = some (.error e) →
      (∀ i, i < reqs.length → i ≠ k → rs[i]? = some (.error (shadow e))) →
      (Fatal e ∨ isInvalidArgumentError e = true ∧ (appendAll valid s reqs).1[k]? = some .refusedArgument) →
      Batched valid s reqs (.ok rs) s
  /-- The transaction could not be begun or committed. -/
  | failed {e s'} : Fatal e → s' = s ∨ s' = (appendAll valid s reqs).2 → Batched valid s reqs (.error e) s'
  | panic {m k r} : reqs[k]? = some r → PanicCase (appendAll valid s (reqs.take k)).2 r → Batched valid s reqs (.error (.panic m)) s

theorem abortedResults_spec {total k : Nat} {e : Err} {rs : List (Except Err Nat)} (hl : rs.length = k + 1) (hk : k < total)
    (he : rs[k]? = some (.error e)) :
    (abortedResults total k e rs).length = total ∧ (abortedResults total k e rs)[k]? = some (.error e) ∧
    ∀ i, i < total → i ≠ k → (abortedResults total k e rs)[i]? = some (.error (shadow e)) := by
  unfold abortedResults
  refine ⟨by simp; omega, ?_, fun i hi hne => ?_⟩
  · rw [List.getElem?_append_left (by simp; omega)]
    simp [he]
  · by_cases h : i < rs.length
    · rw [List.getElem?_append_left (by simpa using h)]
      simp [h, hne]
    · rw [List.getElem?_append_right (by simpa using h)]
      rw [List.getElem?_replicate]
      simp; omega

/-- Every outcome of `append_batch`: all requests have been executed one after the other, or nothing has changed and all are told so,
or the transaction failed as a whole, or (an empty request with a violated condition) the code panics. -/
theorem C71_outcomes [DecidablePred valid] {env : Env} (he : EnvOk env) (L : Lawful B env.H valid) {d : δ} {s : Spec.Db} (hd : L.RepD d s)
    {reqs : List Request} (ha : ∀ r ∈ reqs, AfterOk r) (i : ι) :
    ∃ s', Batched valid s reqs (appendBatch B env reqs i d).1 s' ∧ L.RepD (appendBatch B env reqs i d).2 s' := by
  unfold appendBatch
  rcases L.begin hd with ⟨w, hb, hw⟩ | ⟨e, hb, hf⟩
  · rw [hb]
    dsimp only
    have hend := loop_spec he L reqs [] ⟨w, [], none⟩ ⟨rfl, rfl, hw, trivial⟩ (fun o ho => by cases ho) ha
    rw [List.nil_append] at hend
    generalize hrun : runItems B env 0 reqs ⟨w, [], none⟩ = res
    rw [show runItems B env ([] : List Request).length reqs ⟨w, [], none⟩ = res from hrun] at hend
    cases hend with
    | all hx hok =>
      dsimp only
      rw [hx.abort]
      dsimp only
      rcases L.commit i hx.rep with ⟨d', hc, hd'⟩ | ⟨e, d', hc, hf, hd' | hd'⟩
      · rw [hc]; exact ⟨_, .done hx.told hok, hd'⟩
      · rw [hc]; exact ⟨_, .failed hf (.inl rfl), hd'⟩
      · rw [hc]; exact ⟨_, .failed hf (.inr rfl), hd'⟩
    | stop hk hab hl hr _ hf =>
      dsimp only
      rw [hab]
      obtain ⟨h1, h2, h3⟩ := abortedResults_spec hl hk hr
      exact ⟨s, .aborted h1 hk h2 h3 hf, hd⟩
    | panic hr hp => exact ⟨s, .panic hr hp, hd⟩
  · rw [hb]
    exact ⟨s, .failed (L.fails hf) (.inl rfl), hd⟩

/-- The claim, when no request is invalid and nothing fails. -/
theorem C71_sequence_partial [DecidablePred valid] {env : Env} (he : EnvOk env) (L : Lawful B env.H valid) {d : δ} {s : Spec.Db} (hd : L.RepD d s)
    {reqs : List Request} (ha : ∀ r ∈ reqs, AfterOk r) (hv : ∀ o ∈ (appendAll valid s reqs).1, o ≠ .refusedArgument) (i : ι)
    {rs : List (Except Err Nat)} (hr : (appendBatch B env reqs i d).1 = .ok rs) (hf : ∀ r ∈ rs, ¬ Failure r) :
    SaysAll rs (appendAll valid s reqs).1 ∧ L.RepD (appendBatch B env reqs i d).2 (appendAll valid s reqs).2 := by
  obtain ⟨s', hb, hd'⟩ := C71_outcomes he L hd ha i
  rw [hr] at hb
  generalize (appendBatch B env reqs i d).2 = d' at hd'
  cases hb with
  | done h1 h2 => exact ⟨h1, hd'⟩
  | aborted h1 h2 h3 h4 h5 =>
    rcases h5 with h5 | ⟨-, h5⟩
    · exact absurd (failure_of_fatal h5) (hf _ (List.mem_of_getElem? h3))
    · exact absurd rfl (hv _ (List.mem_of_getElem? h5))

/-- One answer for every request. -/
theorem C71_answers [DecidablePred valid] {env : Env} (he : EnvOk env) (L : Lawful B env.H valid) {d : δ} {s : Spec.Db} (hd : L.RepD d s)
    {reqs : List Request} (ha : ∀ r ∈ reqs, AfterOk r) (i : ι) {rs : List (Except Err Nat)} (hr : (appendBatch B env reqs i d).1 = .ok rs) :
    rs.length = reqs.length := by
  obtain ⟨s', hb, -⟩ := C71_outcomes he L hd ha i
  rw [hr] at hb
  cases hb with
  | done h1 h2 => rw [saysAll_length h1, appendAll_length]
  | aborted h1 => exact h1

/-- An accepted request in the answer means that all requests took effect. -/
theorem C71_accepted [DecidablePred valid] {env : Env} (he : EnvOk env) (L : Lawful B env.H valid) {d : δ} {s : Spec.Db} (hd : L.RepD d s)
    {reqs : List Request} (ha : ∀ r ∈ reqs, AfterOk r) (i : ι) {rs : List (Except Err Nat)} (hr : (appendBatch B env reqs i d).1 = .ok rs)
    {p : Nat} (hp : .ok p ∈ rs) : SaysAll rs (appendAll valid s reqs).1 ∧ L.RepD (appendBatch B env reqs i d).2 (appendAll valid s reqs).2 := by
  obtain ⟨s', hb, hd'⟩ := C71_outcomes he L hd ha i
  rw [hr] at hb
  generalize (appendBatch B env reqs i d).2 = d' at hd'
  cases hb with
  | done h1 h2 => exact ⟨h1, hd'⟩
  | @aborted _ k e h1 h2 h3 h4 h5 =>
    obtain ⟨j, hj⟩ := List.getElem?_of_mem hp
    have hlt : j < reqs.length := by
      rw [← h1]
      exact (List.getElem?_eq_some_iff.mp hj).1
    by_cases hjk : j = k
    · subst hjk; rw [hj] at h3; cases h3
    · rw [h4 j hlt hjk] at hj; cases hj

/-! ## Counterexamples -/

/-- Data of a single zero byte is not accepted. -/
def exPicky : Record → Bool := fun r => decide (r.event.data ≠ [0])

/-- The claim is false: an invalid request takes the others with it, though each of them would be accepted alone, and another
invalid one would not be noticed by the others if the requests came through the writer thread. -/
theorem C71_false :
    let good : Request := ⟨[exEv 1], none, none⟩
    let bad : Request := ⟨[exEv 0], none, none⟩
    (appendBatch (memBackend exPicky) exEnv [good, bad, good] .good MemDb.empty).1.toOption.map (·.map fun r => r.toOption) = some [none, none, none] ∧
    (serve (memBackend exPicky) exEnv 2048 (fun _ => 9) (fun _ => .good) MemDb.empty
      [.append ⟨1, good, noCancel⟩, .append ⟨2, bad, noCancel⟩, .append ⟨3, good, noCancel⟩]).answers.map (fun a => (a.1, a.2.toOption)) =
      [(1, some 1), (2, none), (3, some 2)] ∧
    (Db.append (memBackend exPicky) exEnv good .good MemDb.empty).1 = .ok 1 := by
  decide +kernel

/-- An empty request is not always answered with 0: with a condition that is violated the code panics (in builds without overflow checks
the index is then out of range), while `append` says 0. -/
theorem C71_empty_false :
    (appendBatch MB exEnv [⟨[], some ⟨⟨[]⟩, none⟩, none⟩] .good exDb).1 = .error (.panic "attempt to subtract with overflow") ∧
    (Db.append MB exEnv ⟨[], some ⟨⟨[]⟩, none⟩, none⟩ .good exDb).1 = .ok 0 := by
  decide +kernel

/-! ### Examples -/

/-- The third request sees the event of the first and is refused; the others are stored. -/
example : (appendBatch MB exEnv [⟨[exEv 1], none, none⟩, ⟨[exEv 2], none, none⟩, ⟨[exEv 3], some ⟨⟨[⟨["T"], ["t"]⟩]⟩, some 1⟩, none⟩,
      ⟨[exEv 4], none, none⟩] .good MemDb.empty).1 = .ok [.ok 1, .ok 2, .error (.integrity "condition matched"), .ok 3] := by
  decide +kernel

example : abortedResults 4 1 (.io "disk full") [.ok 5, .error (.io "disk full")] =
    [.error (.io abortMsg), .error (.io "disk full"), .error (.io abortMsg), .error (.io abortMsg)] := by decide

/-- An item without events is answered 0, and its tracking position is stored. -/
example : (appendBatch MB exEnv [⟨[], none, some ⟨"up", 9⟩⟩, ⟨[], none, some ⟨"up", 9⟩⟩] .good MemDb.empty).1.toOption.map (·.map (·.toOption)) =
    some [some 0, none] := by decide +kernel

end Uma.Props
