import Verif.Props.Retry

/-!
# C75: decisions are made on the current state

A client reads, decides, and appends with the condition that nothing it has read has changed.
-/

namespace Uma.Props
open Uma.Spec Uma.Db Uma.Page Uma.Codec

variable {valid : Record → Prop} [DecidablePred valid]

/-! ## The claim -/

/-- No event of these carries the uuid of an event of the request. -/
def Unlike (req : Request) (evs : List Event) : Prop := ∀ e ∈ evs, ∀ e' ∈ req.events, e'.uuid.isSome → e.uuid ≠ e'.uuid

/-- The call `id` with the request `req` is the only one with the uuids of its events. -/
def SoleUuids (s : Spec.Db) (hist : History) (id : Nat) (req : Request) : Prop :=
  Unlike req (s.log.map (·.event)) ∧ ∀ t id' r, (t, .asked id' r) ∈ hist → id' ≠ id → Unlike req r.events

/-- The answer `o` to `l` was there before the call `id` was made. -/
def SeenBefore (hist : History) (id : Nat) (l : Look) (o : Seen) : Prop :=
  ∃ t i, (t, .saw i l o) ∈ hist ∧ ∀ t' r, (t', .asked id r) ∈ hist → t < t'

/-- What a client does: it reads, and appends what it has chosen on the condition that the answer still stands; or it appends something
fixed, with any condition or none. -/
inductive Rule
  | reads (query : Option Query) (start : Option Nat) (backwards : Bool) (limit : Option Nat) (choose : List SeqEvent → List Event × Option Tracking)
  | blind (events : List Event) (tracking : Option Tracking)

/-- The request of a client with this rule. -/
inductive Rule.Sends (hist : History) (id : Nat) : Rule → Request → Prop
  | reads {query start backwards limit choose l h} : SeenBefore hist id (.read query start backwards limit) (.events l h) →
      Rule.Sends hist id (.reads query start backwards limit choose) ⟨(choose l).1, some ⟨query.getD ⟨[]⟩, h⟩, (choose l).2⟩
  | blind {events condition tracking} : Rule.Sends hist id (.blind events tracking) ⟨events, condition, tracking⟩

/-- Reading, deciding and appending in one instant, nobody interfering. -/
def Rule.act (s : Spec.Db) : Rule → Spec.Db
  | .reads query start backwards limit choose =>
    let x := choose (Spec.read s.log (query.getD ⟨[]⟩) start backwards limit)
    ⟨s.log ++ x.1.map (fun e => ⟨e, x.2⟩), match x.2 with | none => s.track | some t => setTrack s.track t⟩
  | .blind events tracking =>
    ⟨s.log ++ events.map (fun e => ⟨e, tracking⟩), match tracking with | none => s.track | some t => setTrack s.track t⟩

/-! ## Proofs -/

theorem appendAll_grows : ∀ (reqs : List Request) (s : Spec.Db), ∃ l, (appendAll valid s reqs).2.log = s.log ++ l ∧
    ∀ x ∈ l, ∃ r ∈ reqs, x.event ∈ r.events
  | [], s => ⟨[], by simp [appendAll], by simp⟩
  | r :: reqs, s => by
    obtain ⟨l, h1, h2, -⟩ := other_effect (valid := valid) (s := s) (r := r)
    obtain ⟨l', h3, h4⟩ := appendAll_grows reqs (Spec.append valid s r).2
    refine ⟨l ++ l', ?_, fun x hx => ?_⟩
    · show (appendAll valid (Spec.append valid s r).2 reqs).2.log = _
      rw [h3, h1, List.append_assoc]
    · rcases List.mem_append.mp hx with hx | hx
      · exact ⟨r, by simp, h2 x hx⟩
      · obtain ⟨r', k1, k2⟩ := h4 x hx
        exact ⟨r', by simp [k1], k2⟩

/-- If nothing has violated the condition since, reading again gives the same. -/
theorem read_again {L l : Log} {c : Condition} {q : Query} {start : Option Nat} {b : Bool} {limit : Option Nat}
    (hq : ∀ e, Matches q e → Matches c.failIfEventsMatch e) (ha : ∀ a ∈ c.after, a ≤ L.length) (hv : violations (L ++ l) c = []) :
    Spec.read (L ++ l) q start b limit = Spec.read L q start b limit := by
  have h : ((sequenced (L ++ l)).filter fun e => decide (InRange start b e.position) && decide (Matches q e.event)) =
      (sequenced L).filter fun e => decide (InRange start b e.position) && decide (Matches q e.event) := by
    rw [sequenced_append, List.filter_append, List.append_right_eq_self]
    rw [List.filter_eq_nil_iff]
    intro e he hm
    rw [Bool.and_eq_true] at hm
    have hm := of_decide_eq_true hm.2
    have : e ∈ violations (L ++ l) c := by
      refine List.mem_filter.mpr ⟨by rw [sequenced_append]; exact List.mem_append_right _ he, ?_⟩
      rw [Bool.and_eq_true]
      refine ⟨?_, decide_eq_true (hq _ hm)⟩
      obtain ⟨⟨pp, r⟩, hp, rfl⟩ := List.mem_map.mp he
      have hp1 := (mem_numberFrom.mp hp).1
      cases hc : c.after with
      | none => rfl
      | some a =>
        have := ha a hc
        exact decide_eq_true (show a < pp by omega)
    rw [hv] at this
    cases this
  unfold Spec.read
  rw [h]

theorem not_repeat_of_unlike {log : Log} {c : Condition} {req : Request} (h : Unlike req (log.map (·.event))) : ¬ IsRepeat log c req.events := by
  rintro ⟨h1, h2, -, h4⟩
  obtain ⟨e, es, hes⟩ := List.exists_cons_of_ne_nil h1
  have hm : e.uuid ∈ ((violations log c).take req.events.length).map (·.event.uuid) := by rw [h4, hes]; simp
  obtain ⟨x, hx, hxe⟩ := List.mem_map.mp hm
  have hx := (List.mem_filter.mp (List.mem_of_mem_take hx)).1
  obtain ⟨⟨pp, r⟩, hp, rfl⟩ := List.mem_map.mp hx
  obtain ⟨-, hp2⟩ := mem_numberFrom.mp hp
  exact h r.event (List.mem_map.mpr ⟨r, List.mem_of_getElem? hp2, rfl⟩) e (by simp [hes]) (h2 e (by simp [hes])) hxe

variable {s : Spec.Db} {hist : History} {A : List Done} {τ : Nat → Nat}

/-- What was seen before an append is what the database was some appends before it. -/
theorem seen_prefix (hl : Linear valid s hist A τ) {A1 A2 : List Done} {x : Done} (hA : A = A1 ++ x :: A2) {l : Look} {o : Seen}
    (hs : SeenBefore hist x.id l o) : ∃ F R, A1 = F ++ R ∧ o = l.on (appendAll valid s (F.map (·.req))).2 := by
  obtain ⟨t, i, h1, h2⟩ := hs
  obtain ⟨-, h3, h4⟩ := hl.looks _ _ _ _ h1
  obtain ⟨t', h5, h6⟩ := hl.asked x (by rw [hA]; simp)
  have h7 := h2 _ _ h5
  have hsort := hl.sorted
  rw [hA, List.pairwise_append] at hsort
  refine ⟨_, _, cut hsort.1 (τ i), ?_⟩
  rw [h4]
  unfold stateAt
  have : ((x :: A2).filter fun y => decide (y.time ≤ τ i)) = [] := by
    rw [List.filter_eq_nil_iff]
    intro y hy
    have hxy : x.time ≤ y.time := by
      rcases List.mem_cons.mp hy with rfl | hy
      · exact Nat.le_refl _
      · exact (List.pairwise_cons.mp hsort.2.1).1 y hy
    simp
    omega
  rw [hA, List.filter_append, this, List.append_nil]

/-- The answer to an append of the linear order. -/
theorem linear_at (hl : Linear valid s hist A τ) {A1 A2 : List Done} {x : Done} (hA : A = A1 ++ x :: A2) :
    Says x.ans (Spec.append valid (appendAll valid s (A1.map (·.req))).2 x.req).1 := by
  have hlegal := hl.legal
  rw [hA, List.map_append, List.map_append, appendAll_append] at hlegal
  have h4 := (saysAll_split (by simp [appendAll_count]) hlegal).2
  simp only [List.map_cons, appendAll] at h4
  exact h4.1

theorem linear_unlike (hl : Linear valid s hist A τ) {A1 A2 : List Done} {x : Done} (hA : A = A1 ++ x :: A2) (hu : SoleUuids s hist x.id x.req) :
    Unlike x.req ((appendAll valid s (A1.map (·.req))).2.log.map (·.event)) := by
  obtain ⟨l, h1, h2⟩ := appendAll_grows (valid := valid) (A1.map (·.req)) s
  intro e he
  rw [h1, List.map_append] at he
  rcases List.mem_append.mp he with he | he
  · exact hu.1 e he
  · obtain ⟨r, hr, rfl⟩ := List.mem_map.mp he
    obtain ⟨q, hq, hq'⟩ := h2 r hr
    obtain ⟨y, hy, rfl⟩ := List.mem_map.mp hq
    obtain ⟨t, h3, -⟩ := hl.asked y (by rw [hA]; simp [hy])
    refine hu.2 _ _ _ h3 ?_ _ hq'
    have hn := hl.once
    rw [hA, List.map_append, List.nodup_append] at hn
    exact hn.2.2 y.id (List.mem_map.mpr ⟨y, hy, rfl⟩) x.id (by simp)

theorem read_now (hl : Linear valid s hist A τ) {A1 A2 : List Done} {x : Done} (hA : A = A1 ++ x :: A2) {q : Option Query} {start : Option Nat}
    {b : Bool} {limit : Option Nat} {l : List SeqEvent} {h : Option Nat} (hs : SeenBefore hist x.id (.read q start b limit) (.events l h))
    {c : Condition} (hq : ∀ e, Matches (q.getD ⟨[]⟩) e → Matches c.failIfEventsMatch e)
    (ha : ∀ a ∈ c.after, ∃ a', Displays (.read q start b limit) (.events l h) a' ∧ a ≤ a')
    (hv : violations (appendAll valid s (A1.map (·.req))).2.log c = []) :
    Spec.read (appendAll valid s (A1.map (·.req))).2.log (q.getD ⟨[]⟩) start b limit = l := by
  obtain ⟨F, R, hF, ho⟩ := seen_prefix hl hA hs
  obtain ⟨l', hlog, -⟩ := appendAll_grows (valid := valid) (R.map (·.req)) (appendAll valid s (F.map (·.req))).2
  have hS : (appendAll valid s (A1.map (·.req))).2 = (appendAll valid (appendAll valid s (F.map (·.req))).2 (R.map (·.req))).2 := by
    rw [hF, List.map_append, appendAll_append]
  have hread : Spec.read (appendAll valid s (F.map (·.req))).2.log (q.getD ⟨[]⟩) start b limit = l := by
    have := ho
    simp only [Look.on, Seen.events.injEq] at this
    exact this.1.symm
  rw [hS, hlog] at hv ⊢
  rw [read_again hq (fun a ha' => ?_) hv, hread]
  obtain ⟨a', h5, h6⟩ := ha a ha'
  rw [ho] at h5
  exact Nat.le_trans h6 (displays_le h5)

theorem appendAll_last (A1 : List Done) (x : Done) :
    (appendAll valid s ((A1 ++ [x]).map (·.req))).2 = (Spec.append valid (appendAll valid s (A1.map (·.req))).2 x.req).2 := by
  rw [List.map_append, appendAll_append]; rfl

/-- C75.  An append succeeds, its condition covers what a reader was asked for, and the position in the condition is one that answer has shown
or an earlier one.  Then at the instant of the append the same question has the same answer: nothing the decision was based on has changed. -/
theorem C75_current (hl : Linear valid s hist A τ) {x : Done} (hx : x ∈ A) {p : Nat} (hans : x.ans = .ok p) (hu : SoleUuids s hist x.id x.req)
    {q : Option Query} {start : Option Nat} {b : Bool} {limit : Option Nat} {l : List SeqEvent} {h : Option Nat}
    (hs : SeenBefore hist x.id (.read q start b limit) (.events l h)) {c : Condition} (hc : x.req.condition = some c)
    (hq : ∀ e, Matches (q.getD ⟨[]⟩) e → Matches c.failIfEventsMatch e)
    (ha : ∀ a ∈ c.after, ∃ a', Displays (.read q start b limit) (.events l h) a' ∧ a ≤ a') :
    ∃ A1 A2, A = A1 ++ x :: A2 ∧ Spec.read (appendAll valid s (A1.map (·.req))).2.log (q.getD ⟨[]⟩) start b limit = l ∧
      (appendAll valid s ((A1 ++ [x]).map (·.req))).2 = effect (appendAll valid s (A1.map (·.req))).2 x.req := by
  obtain ⟨A1, A2, hA⟩ := List.append_of_mem hx
  refine ⟨A1, A2, hA, ?_⟩
  have hsays := linear_at hl hA
  have hun := linear_unlike hl hA hu
  have hnow := read_now hl hA hs hq ha
  rw [appendAll_last]
  have hcase := append_case (valid := valid) (appendAll valid s (A1.map (·.req))).2 x.req
  rw [hans] at hsays
  generalize Spec.append valid (appendAll valid s (A1.map (·.req))).2 x.req = y at hcase hsays
  cases hcase with
  | took h1 h2 h3 => exact ⟨hnow (h1 c hc), rfl⟩
  | repeated c' h1 h2 h3 => exact absurd h3 (not_repeat_of_unlike hun)
  | conflict => exact hsays.elim
  | invalid => exact hsays.elim
  | longSource => exact hsays.elim
  | notIncreasing => exact hsays.elim

theorem Rule.Sends.act (hl : Linear valid s hist A τ) {A1 A2 : List Done} {x : Done} (hA : A = A1 ++ x :: A2) {ru : Rule}
    (hR : ru.Sends hist x.id x.req) (h1 : ∀ c ∈ x.req.condition, violations (appendAll valid s (A1.map (·.req))).2.log c = []) :
    effect (appendAll valid s (A1.map (·.req))).2 x.req = ru.act (appendAll valid s (A1.map (·.req))).2 := by
  generalize hr : x.req = r at hR h1
  cases hR with
  | @reads q start b limit choose l h hs =>
    have hsome : ∀ a ∈ h, ∃ a', Displays (.read q start b limit) (.events l h) a' ∧ a ≤ a' := fun a ha => ⟨a, .inr ha, Nat.le_refl _⟩
    have := read_now hl hA hs (c := ⟨q.getD ⟨[]⟩, h⟩) (fun _ h => h) hsome (h1 _ rfl)
    unfold Rule.act effect recordsOf
    dsimp only
    rw [this]
    cases (choose l).2 <;> rfl
  | @blind events condition tracking => cases tracking <;> rfl

/-- C75, all clients together.  Each call has a rule: it reads and appends on the condition that the answer still stands, or it appends something
fixed.  What is recorded in the end is what results if the calls `K` read, decide and append in one instant each, one after the other.  These
are calls that succeed; and all that do, unless they repeat an append with the same uuids. -/
theorem C75_serial (hl : Linear valid s hist A τ) {R : Nat → Rule} (hR : ∀ x ∈ A, (R x.id).Sends hist x.id x.req) :
    ∃ K : List Done, K.Sublist A ∧ (appendAll valid s (A.map (·.req))).2 = K.foldl (fun s x => (R x.id).act s) s ∧
      (∀ x ∈ K, ∃ p, x.ans = .ok p) ∧ ∀ x ∈ A, ∀ p, x.ans = .ok p → SoleUuids s hist x.id x.req → x ∈ K := by
  have key : ∀ n, ∃ K : List Done, K.Sublist (A.take n) ∧ (appendAll valid s ((A.take n).map (·.req))).2 = K.foldl (fun s x => (R x.id).act s) s ∧
      (∀ x ∈ K, ∃ p, x.ans = .ok p) ∧ ∀ x ∈ A.take n, ∀ p, x.ans = .ok p → SoleUuids s hist x.id x.req → x ∈ K := by
    intro n
    induction n with
    | zero => exact ⟨[], by simp, by simp [appendAll], by simp, by simp⟩
    | succ n ih =>
      obtain ⟨K, h1, h2, h3, h4⟩ := ih
      cases hn : A[n]? with
      | none =>
        have hlen : A.length ≤ n := List.getElem?_eq_none_iff.mp hn
        have e : A.take (n + 1) = A.take n := by rw [List.take_of_length_le hlen, List.take_of_length_le (by omega)]
        rw [e]
        exact ⟨K, h1, h2, h3, h4⟩
      | some x =>
        have htake : A.take (n + 1) = A.take n ++ [x] := by rw [List.take_add_one, hn]; rfl
        have hA : A = A.take n ++ x :: A.drop (n + 1) := by
          rw [← List.singleton_append, ← List.append_assoc, ← htake, List.take_append_drop]
        have hsays := linear_at hl hA
        have hmem : x ∈ A := List.mem_of_getElem? hn
        have hact := (hR x hmem).act hl hA
        have hun := linear_unlike hl hA
        rw [htake, appendAll_last]
        have hcase := append_case (valid := valid) (appendAll valid s ((A.take n).map (·.req))).2 x.req
        have skip : (∀ p, x.ans = .ok p → SoleUuids s hist x.id x.req → False) → ∃ K : List Done, K.Sublist (A.take n ++ [x]) ∧
            (appendAll valid s ((A.take n).map (·.req))).2 = K.foldl (fun s x => (R x.id).act s) s ∧ (∀ x ∈ K, ∃ p, x.ans = .ok p) ∧
            ∀ y ∈ A.take n ++ [x], ∀ p, y.ans = .ok p → SoleUuids s hist y.id y.req → y ∈ K := by
          intro hno
          refine ⟨K, h1.trans (List.sublist_append_left _ _), h2, h3, fun y hy p hp hu => ?_⟩
          rcases List.mem_append.mp hy with hy | hy
          · exact h4 y hy p hp hu
          · rw [List.mem_singleton.mp hy] at hp hu
            exact (hno p hp hu).elim
        have refused : ∀ {o : Outcome}, Says x.ans o → (∀ p, o ≠ .ok p) → ∀ p, x.ans = .ok p → SoleUuids s hist x.id x.req → False := by
          intro o ho hne p hp _
          rw [hp] at ho
          cases o with
          | ok p' => exact hne p' rfl
          | refusedIntegrity => exact ho
          | refusedArgument => exact ho
        generalize Spec.append valid (appendAll valid s ((A.take n).map (·.req))).2 x.req = y at hcase hsays
        cases hcase with
        | took k1 k2 k3 =>
          refine ⟨K ++ [x], h1.append (List.Sublist.refl _), ?_, fun y hy => ?_, fun y hy p hp hu => ?_⟩
          · rw [List.foldl_append, ← h2]
            exact hact k1
          · rcases List.mem_append.mp hy with hy | hy
            · exact h3 y hy
            · rw [List.mem_singleton.mp hy]
              cases ha : x.ans with
              | ok p => exact ⟨p, rfl⟩
              | error e => rw [ha] at hsays; cases e <;> exact hsays.elim
          · rcases List.mem_append.mp hy with hy | hy
            · exact List.mem_append_left _ (h4 y hy p hp hu)
            · exact List.mem_append_right _ hy
        | repeated c k1 k2 k3 => exact skip fun p _ hu => not_repeat_of_unlike (hun hu) k3
        | conflict => exact skip (refused hsays (fun p e => by cases e))
        | invalid => exact skip (refused hsays (fun p e => by cases e))
        | longSource => exact skip (refused hsays (fun p e => by cases e))
        | notIncreasing => exact skip (refused hsays (fun p e => by cases e))
  have := key A.length
  rw [List.take_length] at this
  exact this

/-- C75, business rules: what every decision preserves when nobody interferes is preserved, whatever the clients do at the same time. -/
theorem C75_invariant (hl : Linear valid s hist A τ) {R : Nat → Rule} (hR : ∀ x ∈ A, (R x.id).Sends hist x.id x.req) {I : Spec.Db → Prop} (h0 : I s)
    (hI : ∀ t id r s, (t, .asked id r) ∈ hist → I s → I ((R id).act s)) : I (appendAll valid s (A.map (·.req))).2 := by
  obtain ⟨K, h1, h2, -⟩ := C75_serial hl hR
  rw [h2]
  have : ∀ x ∈ K, ∀ s, I s → I ((R x.id).act s) := fun x hx s hs => by
    obtain ⟨t, h, -⟩ := hl.asked x (h1.subset hx)
    exact hI t x.id x.req s h hs
  clear h1 h2
  have fold : ∀ (K : List Done) (s : Spec.Db), (∀ x ∈ K, ∀ s, I s → I ((R x.id).act s)) → I s → I (K.foldl (fun s x => (R x.id).act s) s) := by
    intro K
    induction K with
    | nil => intro s _ h; exact h
    | cons x K ih => intro s hK h; exact ih _ (fun y hy => hK y (by simp [hy])) (hK x (by simp) s h)
  exact fold K s this h0

open Classical in
/-- C75 for the runs of the model: clients that read, decide and append on the condition that the answer still stands, against a server that may
crash at any moment.  Whatever all decisions preserve holds. -/
theorem C75_consistent {conf : Conf} {kw : Nat} {env : Env} (he : EnvOk env) (hc : ConfOk conf kw) (hH : ∀ t, Codec.NormalizedTo kw (env.H t))
    {d : PDb} {s : Spec.Db} (hd : LiveS conf hc env.H d s) {W : World} (hw : Worlds conf env (.init d) W) {R : Nat → Rule}
    (hR : ∀ t id r, (t, .asked id r) ∈ W.hist → (R id).Sends W.hist id r) {I : Spec.Db → Prop} (h0 : I s)
    (hI : ∀ t id r s, (t, .asked id r) ∈ W.hist → I s → I ((R id).act s)) : ∃ s', Shows conf env W.sys.d s' ∧ I s' := by
  obtain ⟨A, τ, hl, hs⟩ := C58_linearizable he hc hH hd hw
  refine ⟨_, hs, C75_invariant hl (fun x hx => ?_) h0 hI⟩
  obtain ⟨t, h, -⟩ := hl.asked x hx
  exact hR _ _ _ h

open Classical in
/-- The same with the pipelined writer, under the conditions of `C64_linearizable_partial`. -/
theorem C75_consistent_pipelined {conf : Conf} {kw : Nat} {env : Env} (hg : conf.g.pageSize = defaultPageSize) (he : EnvOk env) (hc : ConfOk conf kw)
    (hH : ∀ t, Codec.NormalizedTo kw (env.H t)) {d : PDb} {s : Spec.Db} (hd : LiveS conf hc env.H d s) {st : Pipe}
    (hst : Pipe.start conf d = .ok st) {W : PWorld} (hw : PWorlds conf env Careful (.init st) W) {R : Nat → Rule}
    (hR : ∀ t id r, (t, .asked id r) ∈ W.hist → (R id).Sends W.hist id r) {I : Spec.Db → Prop} (h0 : I s)
    (hI : ∀ t id r s, (t, .asked id r) ∈ W.hist → I s → I ((R id).act s)) : ∃ s', Shows conf env W.sys.st.db s' ∧ I s' := by
  obtain ⟨A, τ, hl, hs⟩ := C64_linearizable_partial hg he hc hH hd hst hw
  refine ⟨_, hs, C75_invariant hl (fun x hx => ?_) h0 hI⟩
  obtain ⟨t, h, -⟩ := hl.asked x hx
  exact hR _ _ _ h

section Examples

def exQ : Query := ⟨[⟨["T"], ["t"]⟩]⟩

/-- Claim something if nobody has yet. -/
def exClaim (id : Nat) : Rule := .reads (some exQ) none false none fun l => (if l = [] then [exEv (if id = 1 then 1 else 2)] else [], none)

/-- Two clients look, see that nobody has, and claim; the second is refused. -/
def exClaimRace : History :=
  [(1, .opened 1), (2, .opened 2), (5, .saw 1 (.read (some exQ) none false none) (.events [] none)),
   (6, .saw 2 (.read (some exQ) none false none) (.events [] none)), (7, .asked 1 ⟨[exEv 1], some ⟨exQ, none⟩, none⟩),
   (8, .asked 2 ⟨[exEv 2], some ⟨exQ, none⟩, none⟩), (11, .answered 1 (.ok 1)), (12, .answered 2 (.error (.integrity "condition matched")))]

def exClaimRaceDone : List Done :=
  [⟨9, 1, ⟨[exEv 1], some ⟨exQ, none⟩, none⟩, .ok 1⟩, ⟨10, 2, ⟨[exEv 2], some ⟨exQ, none⟩, none⟩, .error (.integrity "condition matched")⟩]

theorem exClaimRace_linear : Linear (fun _ => True) Spec.Db.empty exClaimRace exClaimRaceDone (fun i => i + 2) where
  clock := by simp [exClaimRace]
  sorted := by simp [exClaimRaceDone]
  once := by simp [exClaimRaceDone]
  legal := by
    have h : (appendAll (fun _ => True) Spec.Db.empty (exClaimRaceDone.map (·.req))).1 = [.ok 1, .refusedIntegrity] := by decide +kernel
    rw [h]
    exact ⟨rfl, trivial, trivial⟩
  asked := by
    intro x hx
    simp only [exClaimRaceDone, List.mem_cons, List.not_mem_nil, or_false] at hx
    rcases hx with rfl | rfl
    · exact ⟨7, by simp [exClaimRace], by decide⟩
    · exact ⟨8, by simp [exClaimRace], by decide⟩
  answered := by
    intro t id a h
    simp [exClaimRace] at h
    rcases h with ⟨rfl, rfl, rfl⟩ | ⟨rfl, rfl, rfl⟩
    · exact .inl ⟨⟨9, 1, ⟨[exEv 1], some ⟨exQ, none⟩, none⟩, .ok 1⟩, by simp [exClaimRaceDone], rfl, rfl, by decide⟩
    · exact .inl ⟨⟨10, 2, ⟨[exEv 2], some ⟨exQ, none⟩, none⟩, .error (.integrity "condition matched")⟩, by simp [exClaimRaceDone], rfl, rfl, by decide⟩
  onceAnswered := by
    intro t t' id a a' h h'
    simp [exClaimRace] at h h'
    omega
  askedFirst := by
    intro t id a h
    simp [exClaimRace] at h
    rcases h with ⟨rfl, rfl, rfl⟩ | ⟨rfl, rfl, rfl⟩
    · exact ⟨7, _, by simp [exClaimRace]; rfl, by decide⟩
    · exact ⟨8, _, by simp [exClaimRace]; rfl, by decide⟩
  looks := by
    intro t i l a h
    simp [exClaimRace] at h
    rcases h with ⟨rfl, rfl, rfl, rfl⟩ | ⟨rfl, rfl, rfl, rfl⟩
    · exact ⟨⟨1, by simp [exClaimRace], by decide⟩, by decide, by simp [stateAt, exClaimRaceDone, appendAll]; rfl⟩
    · exact ⟨⟨2, by simp [exClaimRace], by decide⟩, by decide, by simp [stateAt, exClaimRaceDone, appendAll]; rfl⟩
  heads := by
    intro t h hh
    simp [exClaimRace] at hh

theorem exClaimRace_rules : ∀ x ∈ exClaimRaceDone, (exClaim x.id).Sends exClaimRace x.id x.req := by
  intro x hx
  simp only [exClaimRaceDone, List.mem_cons, List.not_mem_nil, or_false] at hx
  rcases hx with rfl | rfl
  · exact .reads (l := []) (h := none) ⟨5, 1, by simp [exClaimRace], by simp [exClaimRace]⟩
  · exact .reads (l := []) (h := none) ⟨6, 2, by simp [exClaimRace], by simp [exClaimRace]⟩

/-- Nobody has claimed what somebody else has. -/
def ExOne (s : Spec.Db) : Prop := (Spec.read s.log exQ none false none).length ≤ 1

theorem exClaim_one (id : Nat) {s : Spec.Db} (h : ExOne s) : ExOne ((exClaim id).act s) := by
  unfold exClaim Rule.act
  dsimp only [Option.getD_some]
  by_cases h0 : Spec.read s.log exQ none false none = []
  · rw [if_pos h0]
    unfold ExOne
    dsimp only
    have h0' : ((sequenced s.log).filter fun e => decide (InRange none false e.position) && decide (Matches exQ e.event)) = [] := h0
    show ((sequenced _).filter fun e => decide (InRange none false e.position) && decide (Matches exQ e.event)).length ≤ 1
    rw [sequenced_append, List.filter_append, h0', List.nil_append]
    refine (List.length_filter_le _ _).trans ?_
    simp [numberFrom]
  · rw [if_neg h0]
    simpa using h

/-- One of the two has it. -/
example : ExOne (appendAll (fun _ => True) Spec.Db.empty (exClaimRaceDone.map (·.req))).2 :=
  C75_invariant exClaimRace_linear exClaimRace_rules (by simp [ExOne, Spec.Db.empty, Spec.read, sequenced, numberFrom, applyLimit]) fun _ id _ _ _ h => exClaim_one id h

/-- The one that succeeded still saw nothing at the instant of its append. -/
example : ∃ A1 A2, exClaimRaceDone = A1 ++ ⟨9, 1, ⟨[exEv 1], some ⟨exQ, none⟩, none⟩, .ok 1⟩ :: A2 ∧
    Spec.read (appendAll (fun _ => True) Spec.Db.empty (A1.map (·.req))).2.log exQ none false none = [] := by
  obtain ⟨A1, A2, h1, h2, -⟩ := C75_current exClaimRace_linear (x := ⟨9, 1, ⟨[exEv 1], some ⟨exQ, none⟩, none⟩, .ok 1⟩) (p := 1) (by simp [exClaimRaceDone]) rfl
    ⟨by simp [Unlike, Spec.Db.empty], by
      intro t id' r h hne
      simp [exClaimRace] at h
      rcases h with ⟨rfl, rfl, rfl⟩ | ⟨rfl, rfl, rfl⟩
      · exact absurd rfl hne
      · unfold Unlike; decide⟩
    (q := some exQ) (start := none) (b := false) (limit := none) (l := []) (h := none) ⟨5, 1, by simp [exClaimRace], by simp [exClaimRace]⟩
    (c := ⟨exQ, none⟩) rfl (fun _ h => h) (by simp)
  exact ⟨A1, A2, h1, h2⟩

/-- In a run of the model: the database never holds one event of a pair. -/
example : ∃ (d : PDb) (W : World) (s' : Spec.Db), Worlds exConf exConstEnv (.init d) W ∧ (11, .answered 1 (.ok 2)) ∈ W.hist ∧
    Shows exConf exConstEnv W.sys.d s' ∧ s'.log.length % 2 = 0 := by
  obtain ⟨d, W, h1, h2, h3⟩ := exHistory
  obtain ⟨s', h4, h5⟩ := C75_consistent ⟨fun l => List.Perm.refl l⟩ exConf_ok exConstEnv_width h1 h2
    (R := fun _ => .blind [exEv 1, exEv 2] (some ⟨"up", 9⟩)) (I := fun s => s.log.length % 2 = 0) (by
      intro t id r h
      rw [h3] at h
      simp at h
      rw [h.2.2]
      exact .blind) rfl (by
      intro t id r s _ h
      simp only [Rule.act, List.length_append, List.length_map, List.length_cons, List.length_nil]
      omega)
  exact ⟨d, W, s', h2, by rw [h3]; simp, h4, h5⟩

/-- Three events; the last two are read backwards.  The position that comes with the answer is that of the older of the two, so an append on
the condition that the answer still stands is refused although nothing has happened. -/
theorem C75_backwards_false :
    let d := (Db.append MB exEnv ⟨[exEv 1, exEv 2, exEv 3], none, none⟩ .good MemDb.empty).2
    (Db.read MB exEnv d (some exQ) none true (some 2) = .ok ([⟨3, exEv 3, none⟩, ⟨2, exEv 2, none⟩], some 2)) ∧
      (Db.append MB exEnv ⟨[exEv 4], some ⟨exQ, some 2⟩, none⟩ .good d).1 = .error (.integrity "condition matched") ∧
      (Db.append MB exEnv ⟨[exEv 4], some ⟨exQ, some 3⟩, none⟩ .good d).1 = .ok 4 := by
  decide +kernel

end Examples

end Uma.Props
