import Verif.Props.Decide

/-!
# C76: following an upstream source

Workers go through the events of a source and append, for each, its results with the position of the event.
-/

namespace Uma.Props
open Uma.Spec Uma.Db Uma.Page Uma.Codec

variable {valid : Record → Prop} [DecidablePred valid]

/-! ## The claim -/

/-- The records that stem from the source. -/
def ofSource (src : String) (log : Log) : Log := log.filter fun r => r.tracking.any fun t => decide (t.source = src)

/-- The position `m` of the source was reported before the call `id` was made: by a reader, or by the success of an append (without a condition)
that carried it. -/
inductive Reached (hist : History) (src : String) (id : Nat) : Option Nat → Prop
  | saw {m} : SeenBefore hist id (.track src) (.position m) → Reached hist src id m
  | did {k t id' p} : (t, .answered id' (.ok p)) ∈ hist → (∀ t' r, (t', .asked id r) ∈ hist → t < t') →
      (∀ t' r, (t', .asked id' r) ∈ hist → r.tracking = some ⟨src, k⟩ ∧ r.condition = none) → Reached hist src id (some k)

/-- `next p` is the position that comes after `p` at the source, `results k` what is to be appended for the event at `k`.  A request of a worker:
the results for the position after one that was reported as reached. -/
def Works (hist : History) (src : String) (next : Option Nat → Option Nat) (results : Nat → List Event) (id : Nat) (req : Request) : Prop :=
  ∃ m k, Reached hist src id m ∧ next m = some k ∧ req.tracking = some ⟨src, k⟩ ∧ req.events = results k

/-- A request that has nothing to do with the source. -/
def Aside (src : String) (req : Request) : Prop := ∀ t ∈ req.tracking, t.source ≠ src

/-- The positions of the source after `p`, one after the other, none left out. -/
def OneByOne (next : Option Nat → Option Nat) : Option Nat → List Nat → Prop
  | _, [] => True
  | p, k :: l => next p = some k ∧ OneByOne next (some k) l

/-- Where they end. -/
def endsAt : Option Nat → List Nat → Option Nat
  | p, [] => p
  | _, k :: l => endsAt (some k) l

/-- What is recorded for them. -/
def outputs (src : String) (results : Nat → List Event) (ks : List Nat) : Log := ks.flatMap fun k => (results k).map fun e => ⟨e, some ⟨src, k⟩⟩

/-! ## Proofs -/

variable {next : Option Nat → Option Nat}

theorem OneByOne.snoc : ∀ {l : List Nat} {p : Option Nat} {k : Nat}, OneByOne next p l → next (endsAt p l) = some k → OneByOne next p (l ++ [k])
  | [], _, _, _, h => ⟨h, trivial⟩
  | _ :: _, _, _, hl, h => ⟨hl.1, OneByOne.snoc hl.2 h⟩

theorem endsAt_snoc : ∀ (l : List Nat) (p : Option Nat) (k : Nat), endsAt p (l ++ [k]) = some k
  | [], _, _ => rfl
  | a :: l, _, k => endsAt_snoc l (some a) k

theorem endsAt_append : ∀ (l l' : List Nat) (p : Option Nat), endsAt p (l ++ l') = endsAt (endsAt p l) l'
  | [], _, _ => rfl
  | a :: l, l', _ => endsAt_append l l' (some a)

theorem OneByOne.right : ∀ {l l' : List Nat} {p : Option Nat}, OneByOne next p (l ++ l') → OneByOne next (endsAt p l) l'
  | [], _, _, h => h
  | a :: l, _, _, h => OneByOne.right (l := l) (p := some a) h.2

theorem OneByOne.le (hn : ∀ p k, next p = some k → ∀ a ∈ p, a < k) : ∀ {l : List Nat} {a : Nat}, OneByOne next (some a) l →
    ∃ b, endsAt (some a) l = some b ∧ a ≤ b
  | [], a, _ => ⟨a, rfl, Nat.le_refl _⟩
  | k :: l, a, h => by
    obtain ⟨b, h1, h2⟩ := OneByOne.le hn h.2
    have := hn _ _ h.1 a rfl
    exact ⟨b, h1, by omega⟩

theorem OneByOne.compare : ∀ {l l' : List Nat} {p : Option Nat}, OneByOne next p l → OneByOne next p l' → (∃ r, l' = l ++ r) ∨ ∃ r, l = l' ++ r
  | [], l', _, _, _ => .inl ⟨l', rfl⟩
  | l, [], _, _, _ => .inr ⟨l, rfl⟩
  | k :: l, k' :: l', p, h, h' => by
    have : k = k' := Option.some.inj (h.1.symm.trans h'.1)
    subst this
    rcases OneByOne.compare h.2 h'.2 with ⟨r, hr⟩ | ⟨r, hr⟩
    · exact .inl ⟨r, by rw [hr]; rfl⟩
    · exact .inr ⟨r, by rw [hr]; rfl⟩

theorem appendAll_track {src : String} : ∀ (reqs : List Request) (s : Spec.Db) {a : Nat}, s.track src = some a →
    ∃ b, (appendAll valid s reqs).2.track src = some b ∧ a ≤ b
  | [], _, a, h => ⟨a, h, Nat.le_refl _⟩
  | r :: reqs, s, a, h => by
    obtain ⟨-, -, -, h3⟩ := other_effect (valid := valid) (s := s) (r := r)
    obtain ⟨b, h4, h5⟩ := h3 _ _ h
    obtain ⟨c, h6, h7⟩ := appendAll_track reqs (Spec.append valid s r).2 h4
    exact ⟨c, h6, by omega⟩

variable {s : Spec.Db} {hist : History} {A : List Done} {τ : Nat → Nat}

/-- What was reported as reached was reached some appends before. -/
theorem reached_prefix {src : String} (hl : Linear valid s hist A τ) {A1 A2 : List Done} {x : Done} (hA : A = A1 ++ x :: A2) {m : Option Nat}
    (h : Reached hist src x.id m) : ∃ F R, A1 = F ++ R ∧ (appendAll valid s (F.map (·.req))).2.track src = m := by
  cases h with
  | saw h =>
    obtain ⟨F, R, h1, h2⟩ := seen_prefix hl hA h
    simp only [Look.on, Seen.position.injEq] at h2
    exact ⟨F, R, h1, h2.symm⟩
  | @did k t id' p h1 h2 h3 =>
    rcases hl.answered _ _ _ h1 with ⟨y, hy, h4, h5, h6⟩ | ⟨h, -⟩
    · obtain ⟨t', h7, h8⟩ := hl.asked x (by rw [hA]; simp)
      have h9 := h2 _ _ h7
      have hsort := hl.sorted
      rw [hA, List.pairwise_append] at hsort
      have hy1 : y ∈ A1 := by
        rw [hA] at hy
        rcases List.mem_append.mp hy with hy | hy
        · exact hy
        · have : x.time ≤ y.time := by
            rcases List.mem_cons.mp hy with rfl | hy
            · exact Nat.le_refl _
            · exact (List.pairwise_cons.mp hsort.2.1).1 y hy
          omega
      obtain ⟨F, R, hF⟩ := List.append_of_mem hy1
      refine ⟨F ++ [y], R, by rw [hF]; simp, ?_⟩
      obtain ⟨t2, h10, -⟩ := hl.asked y (by rw [hA]; simp [hy1])
      obtain ⟨h11, h12⟩ := h3 _ _ (h4 ▸ h10)
      have hsays := linear_at (A1 := F) (A2 := R ++ x :: A2) (x := y) hl (by rw [hA, hF]; simp)
      rw [appendAll_last]
      have hcase := append_case (valid := valid) (appendAll valid s (F.map (·.req))).2 y.req
      rw [h5] at hsays
      generalize Spec.append valid (appendAll valid s (F.map (·.req))).2 y.req = z at hcase hsays
      cases hcase with
      | took => simp [effect, h11, setTrack]
      | repeated c k1 => rw [h12] at k1; cases k1
      | conflict => exact hsays.elim
      | invalid => exact hsays.elim
      | longSource => exact hsays.elim
      | notIncreasing => exact hsays.elim
    · exact h.elim

theorem ofSource_append (src : String) (l l' : Log) : ofSource src (l ++ l') = ofSource src l ++ ofSource src l' := List.filter_append ..

/-- C76.  Any number of workers, at the same time or one after the other, following the same source; other requests have nothing to do with the
source.  Then the records that stem from the source are the results for its positions one by one, each once, in order, none left out; and the
position recorded for the source is the last of these.  Every position that a worker was told it had done (without a condition) is among them. -/
theorem C76_linear (hl : Linear valid s hist A τ) {src : String} (hn : ∀ p k, next p = some k → ∀ a ∈ p, a < k) {results : Nat → List Event}
    (hw : ∀ t id r, (t, .asked id r) ∈ hist → Works hist src next results id r ∨ Aside src r) :
    ∃ ks, OneByOne next (s.track src) ks ∧ (appendAll valid s (A.map (·.req))).2.track src = endsAt (s.track src) ks ∧
      ofSource src (appendAll valid s (A.map (·.req))).2.log = ofSource src s.log ++ outputs src results ks ∧
      ∀ x ∈ A, ∀ p, x.ans = .ok p → x.req.condition = none → ∀ k, x.req.tracking = some ⟨src, k⟩ → k ∈ ks := by
  have key : ∀ n, ∀ j, j ≤ n → ∃ ks, OneByOne next (s.track src) ks ∧
      (appendAll valid s ((A.take j).map (·.req))).2.track src = endsAt (s.track src) ks ∧
      ofSource src (appendAll valid s ((A.take j).map (·.req))).2.log = ofSource src s.log ++ outputs src results ks ∧
      ∀ x ∈ A.take j, ∀ p, x.ans = .ok p → x.req.condition = none → ∀ k, x.req.tracking = some ⟨src, k⟩ → k ∈ ks := by
    intro n
    induction n with
    | zero =>
      intro j hj
      obtain rfl : j = 0 := by omega
      exact ⟨[], trivial, rfl, by simp [appendAll, outputs], by simp⟩
    | succ n ih =>
      intro j hj
      by_cases hj' : j ≤ n
      · exact ih j hj'
      obtain rfl : j = n + 1 := by omega
      obtain ⟨ks, h1, h2, h3, h4⟩ := ih n (Nat.le_refl _)
      cases hx : A[n]? with
      | none =>
        have hlen : A.length ≤ n := List.getElem?_eq_none_iff.mp hx
        have e : A.take (n + 1) = A.take n := by rw [List.take_of_length_le hlen, List.take_of_length_le (by omega)]
        rw [e]
        exact ⟨ks, h1, h2, h3, h4⟩
      | some x =>
        have htake : A.take (n + 1) = A.take n ++ [x] := by rw [List.take_add_one, hx]; rfl
        have hA : A = A.take n ++ x :: A.drop (n + 1) := by
          rw [← List.singleton_append, ← List.append_assoc, ← htake, List.take_append_drop]
        have hmem : x ∈ A := List.mem_of_getElem? hx
        have hsays := linear_at hl hA
        have count : ∀ {ks' : List Nat}, (∀ k ∈ ks, k ∈ ks') →
            (∀ p, x.ans = .ok p → x.req.condition = none → ∀ k, x.req.tracking = some ⟨src, k⟩ → k ∈ ks') →
            ∀ y ∈ A.take n ++ [x], ∀ p, y.ans = .ok p → y.req.condition = none → ∀ k, y.req.tracking = some ⟨src, k⟩ → k ∈ ks' := by
          intro ks' hsub hxk y hy p hp hc k hk
          rcases List.mem_append.mp hy with hy | hy
          · exact hsub k (h4 y hy p hp hc k hk)
          · rw [List.mem_singleton.mp hy] at hp hc hk
            exact hxk p hp hc k hk
        have refused : ∀ {o : Outcome}, Says x.ans o → (∀ p, o ≠ .ok p) → ∀ p, x.ans = .ok p → False := by
          intro o ho hne p hp
          rw [hp] at ho
          cases o with
          | ok p' => exact hne p' rfl
          | refusedIntegrity => exact ho
          | refusedArgument => exact ho
        rw [htake, appendAll_last]
        have hcase := append_case (valid := valid) (appendAll valid s ((A.take n).map (·.req))).2 x.req
        generalize hS : (appendAll valid s ((A.take n).map (·.req))).2 = S at *
        generalize Spec.append valid S x.req = y at hcase hsays
        cases hcase with
        | took k1 k2 k3 =>
          obtain ⟨t, hask, -⟩ := hl.asked x hmem
          rcases hw _ _ _ hask with ⟨m, k, hm, hnext, htr, hev⟩ | haside
          · obtain ⟨F, R, hF, hFm⟩ := reached_prefix hl hA hm
            have hFt : F = A.take F.length := by
              have : (A.take n).take F.length = F := by rw [hF]; simp
              rw [List.take_take] at this
              have hle : F.length ≤ n := by
                have := congrArg List.length hF
                simp at this
                omega
              rw [Nat.min_eq_left hle] at this
              exact this.symm
            obtain ⟨ks0, g1, g2, -⟩ := ih F.length (by
              have := congrArg List.length hF
              simp at this
              omega)
            rw [← hFt, hFm] at g2
            have hlt := (k3 _ htr).2
            have hcur : endsAt (s.track src) ks = m := by
              rw [g2]
              rcases g1.compare h1 with ⟨r, rfl⟩ | ⟨r, rfl⟩
              · rw [endsAt_append, ← g2]
                have g3 := h1.right
                rw [← g2] at g3
                cases r with
                | nil => rfl
                | cons k' r =>
                  have : k' = k := Option.some.inj (g3.1.symm.trans hnext)
                  subst this
                  obtain ⟨b, g4, g5⟩ := g3.2.le hn
                  rw [endsAt_append, ← g2] at h2
                  have := hlt b (by rw [show S.track src = _ from h2]; exact g4)
                  simp at this
                  omega
              · rw [endsAt_append]
                have g3 := g1.right
                cases r with
                | nil => rfl
                | cons k' r =>
                  exfalso
                  rw [endsAt_append] at g2
                  obtain ⟨b, g4, g5⟩ := g3.2.le hn
                  have hb : (appendAll valid s (F.map (·.req))).2.track src = some b := by rw [hFm, g2]; exact g4
                  obtain ⟨b', g6, g7⟩ := appendAll_track (valid := valid) (R.map (·.req)) _ hb
                  have hSR : (appendAll valid (appendAll valid s (F.map (·.req))).2 (R.map (·.req))).2 = S := by
                    rw [← hS, hF, List.map_append, appendAll_append]
                  rw [hSR, h2] at g6
                  have := hn _ _ g3.1 b' g6
                  omega
            refine ⟨ks ++ [k], h1.snoc (by rw [hcur]; exact hnext), ?_, ?_, count (fun _ h => by simp [h]) fun p _ _ k' hk' => ?_⟩
            · rw [endsAt_snoc]
              simp [effect, htr, setTrack]
            · show ofSource src (S.log ++ recordsOf x.req) = _
              rw [ofSource_append, h3]
              have : ofSource src (recordsOf x.req) = (results k).map fun e => ⟨e, some ⟨src, k⟩⟩ := by
                unfold ofSource recordsOf
                rw [htr, hev, List.filter_eq_self]
                intro r hr
                obtain ⟨e, -, rfl⟩ := List.mem_map.mp hr
                simp
              rw [this]
              simp [outputs, List.append_assoc]
            · rw [htr] at hk'
              cases hk'
              simp
          · refine ⟨ks, h1, ?_, ?_, count (fun _ h => h) fun p _ _ k' hk' => absurd rfl (haside _ hk')⟩
            · rw [← h2]
              unfold effect
              dsimp only
              cases htr : x.req.tracking with
              | none => rfl
              | some t => simp [setTrack, Ne.symm (haside t htr)]
            · show ofSource src (S.log ++ recordsOf x.req) = _
              rw [ofSource_append, h3]
              have : ofSource src (recordsOf x.req) = [] := by
                unfold ofSource recordsOf
                rw [List.filter_eq_nil_iff]
                intro r hr
                obtain ⟨e, -, rfl⟩ := List.mem_map.mp hr
                cases htr : x.req.tracking with
                | none => simp
                | some t => simpa using haside t htr
              rw [this, List.append_nil]
        | repeated c k1 => exact ⟨ks, h1, h2, h3, count (fun _ h => h) fun p _ hc => by (rw [hc] at k1; cases k1)⟩
        | conflict => exact ⟨ks, h1, h2, h3, count (fun _ h => h) fun p hp => (refused hsays (fun p e => by (cases e)) p hp).elim⟩
        | invalid => exact ⟨ks, h1, h2, h3, count (fun _ h => h) fun p hp => (refused hsays (fun p e => by (cases e)) p hp).elim⟩
        | longSource => exact ⟨ks, h1, h2, h3, count (fun _ h => h) fun p hp => (refused hsays (fun p e => by (cases e)) p hp).elim⟩
        | notIncreasing => exact ⟨ks, h1, h2, h3, count (fun _ h => h) fun p hp => (refused hsays (fun p e => by (cases e)) p hp).elim⟩
  have := key A.length A.length (Nat.le_refl _)
  rw [List.take_length] at this
  exact this

open Classical in
/-- C76 for the runs of the model, the server may crash at any moment. -/
theorem C76_exactly_once {conf : Conf} {kw : Nat} {env : Env} (he : EnvOk env) (hc : ConfOk conf kw) (hH : ∀ t, Codec.NormalizedTo kw (env.H t))
    {d : PDb} {s : Spec.Db} (hd : LiveS conf hc env.H d s) {W : World} (hw : Worlds conf env (.init d) W) {src : String}
    (hn : ∀ p k, next p = some k → ∀ a ∈ p, a < k) {results : Nat → List Event}
    (hr : ∀ t id r, (t, .asked id r) ∈ W.hist → Works W.hist src next results id r ∨ Aside src r) :
    ∃ s' ks, Shows conf env W.sys.d s' ∧ OneByOne next (s.track src) ks ∧ s'.track src = endsAt (s.track src) ks ∧
      ofSource src s'.log = ofSource src s.log ++ outputs src results ks ∧
      ∀ t id p, (t, .answered id (.ok p)) ∈ W.hist →
        ∀ k, (∀ t r, (t, .asked id r) ∈ W.hist → r.tracking = some ⟨src, k⟩ ∧ r.condition = none) → k ∈ ks := by
  obtain ⟨A, τ, hl, hs⟩ := C58_linearizable he hc hH hd hw
  obtain ⟨ks, h1, h2, h3, h4⟩ := C76_linear hl hn hr
  refine ⟨_, ks, hs, h1, h2, h3, fun t id p ha k hk => ?_⟩
  rcases hl.answered _ _ _ ha with ⟨x, hx, k1, k2, -⟩ | ⟨h, -⟩
  · obtain ⟨t', k3, -⟩ := hl.asked x hx
    obtain ⟨k4, k5⟩ := hk _ _ (k1 ▸ k3)
    exact h4 x hx p k2 k5 k k4
  · exact h.elim

open Classical in
/-- The same with the pipelined writer, under the conditions of `C64_linearizable_partial`. -/
theorem C76_exactly_once_pipelined {conf : Conf} {kw : Nat} {env : Env} (hg : conf.g.pageSize = defaultPageSize) (he : EnvOk env)
    (hc : ConfOk conf kw) (hH : ∀ t, Codec.NormalizedTo kw (env.H t)) {d : PDb} {s : Spec.Db} (hd : LiveS conf hc env.H d s) {st : Pipe}
    (hst : Pipe.start conf d = .ok st) {W : PWorld} (hw : PWorlds conf env Careful (.init st) W) {src : String}
    (hn : ∀ p k, next p = some k → ∀ a ∈ p, a < k) {results : Nat → List Event}
    (hr : ∀ t id r, (t, .asked id r) ∈ W.hist → Works W.hist src next results id r ∨ Aside src r) :
    ∃ s' ks, Shows conf env W.sys.st.db s' ∧ OneByOne next (s.track src) ks ∧ s'.track src = endsAt (s.track src) ks ∧
      ofSource src s'.log = ofSource src s.log ++ outputs src results ks ∧
      ∀ t id p, (t, .answered id (.ok p)) ∈ W.hist →
        ∀ k, (∀ t r, (t, .asked id r) ∈ W.hist → r.tracking = some ⟨src, k⟩ ∧ r.condition = none) → k ∈ ks := by
  obtain ⟨A, τ, hl, hs⟩ := C64_linearizable_partial hg he hc hH hd hst hw
  obtain ⟨ks, h1, h2, h3, h4⟩ := C76_linear hl hn hr
  refine ⟨_, ks, hs, h1, h2, h3, fun t id p ha k hk => ?_⟩
  rcases hl.answered _ _ _ ha with ⟨x, hx, k1, k2, -⟩ | ⟨h, -⟩
  · obtain ⟨t', k3, -⟩ := hl.asked x hx
    obtain ⟨k4, k5⟩ := hk _ _ (k1 ▸ k3)
    exact h4 x hx p k2 k5 k k4
  · exact h.elim

section Examples

def exUpNext (p : Option Nat) : Option Nat := some (p.getD 0 + 1)
def exResults (k : Nat) : List Event := [exEv (UInt8.ofNat k)]
def exWork (k : Nat) : Request := ⟨exResults k, none, some ⟨"up", k⟩⟩

/-- Two workers.  The first one's append happens, the server crashes before the answer.  The second finds position 1 and goes on with 2; the
first tries 1 again and is refused; the second goes on with 3. -/
def exFollow : History :=
  [(1, .opened 1), (3, .saw 1 (.track "up") (.position none)), (4, .asked 1 (exWork 1)), (6, .crashed), (7, .opened 2),
   (9, .saw 2 (.track "up") (.position (some 1))), (10, .asked 2 (exWork 2)), (11, .asked 3 (exWork 1)), (14, .answered 2 (.ok 2)),
   (15, .answered 3 (.error (.integrity "non-increasing tracking position"))), (16, .asked 4 (exWork 3)), (18, .answered 4 (.ok 3))]

def exFollowDone : List Done :=
  [⟨5, 1, exWork 1, .ok 1⟩, ⟨12, 2, exWork 2, .ok 2⟩, ⟨13, 3, exWork 1, .error (.integrity "non-increasing tracking position")⟩,
   ⟨17, 4, exWork 3, .ok 3⟩]

theorem exFollow_linear : Linear (fun _ => True) Spec.Db.empty exFollow exFollowDone (fun i => if i = 1 then 2 else 8) where
  clock := by simp [exFollow]
  sorted := by simp [exFollowDone]
  once := by simp [exFollowDone]
  legal := by
    have h : (appendAll (fun _ => True) Spec.Db.empty (exFollowDone.map (·.req))).1 = [.ok 1, .ok 2, .refusedIntegrity, .ok 3] := by decide +kernel
    rw [h]
    exact ⟨rfl, rfl, trivial, rfl, trivial⟩
  asked := by
    intro x hx
    simp only [exFollowDone, List.mem_cons, List.not_mem_nil, or_false] at hx
    rcases hx with rfl | rfl | rfl | rfl
    · exact ⟨4, by simp [exFollow], by decide⟩
    · exact ⟨10, by simp [exFollow], by decide⟩
    · exact ⟨11, by simp [exFollow], by decide⟩
    · exact ⟨16, by simp [exFollow], by decide⟩
  answered := by
    intro t id a h
    simp [exFollow] at h
    rcases h with ⟨rfl, rfl, rfl⟩ | ⟨rfl, rfl, rfl⟩ | ⟨rfl, rfl, rfl⟩
    · exact .inl ⟨⟨12, 2, exWork 2, .ok 2⟩, by simp [exFollowDone], rfl, rfl, by decide⟩
    · exact .inl ⟨⟨13, 3, exWork 1, .error (.integrity "non-increasing tracking position")⟩, by simp [exFollowDone], rfl, rfl, by decide⟩
    · exact .inl ⟨⟨17, 4, exWork 3, .ok 3⟩, by simp [exFollowDone], rfl, rfl, by decide⟩
  onceAnswered := by
    intro t t' id a a' h h'
    simp [exFollow] at h h'
    omega
  askedFirst := by
    intro t id a h
    simp [exFollow] at h
    rcases h with ⟨rfl, rfl, rfl⟩ | ⟨rfl, rfl, rfl⟩ | ⟨rfl, rfl, rfl⟩
    · exact ⟨10, exWork 2, by simp [exFollow], by decide⟩
    · exact ⟨11, exWork 1, by simp [exFollow], by decide⟩
    · exact ⟨16, exWork 3, by simp [exFollow], by decide⟩
  looks := by
    intro t i l a h
    simp [exFollow] at h
    rcases h with ⟨rfl, rfl, rfl, rfl⟩ | ⟨rfl, rfl, rfl, rfl⟩
    · exact ⟨⟨1, by simp [exFollow], by decide⟩, by decide, by simp [stateAt, exFollowDone, appendAll]; rfl⟩
    · refine ⟨⟨7, by simp [exFollow], by decide⟩, by decide, ?_⟩
      have h : (stateAt (fun _ => True) Spec.Db.empty exFollowDone 8).track "up" = some 1 := by decide +kernel
      exact congrArg Seen.position h.symm
  heads := by
    intro t h hh
    simp [exFollow] at hh

theorem exFollow_works : ∀ t id r, (t, .asked id r) ∈ exFollow → Works exFollow "up" exUpNext exResults id r ∨ Aside "up" r := by
  intro t id r h
  simp [exFollow] at h
  rcases h with ⟨rfl, rfl, rfl⟩ | ⟨rfl, rfl, rfl⟩ | ⟨rfl, rfl, rfl⟩ | ⟨rfl, rfl, rfl⟩
  · exact .inl ⟨none, 1, .saw ⟨3, 1, by simp [exFollow], by simp [exFollow]⟩, rfl, rfl, rfl⟩
  · exact .inl ⟨some 1, 2, .saw ⟨9, 2, by simp [exFollow], by simp [exFollow]⟩, rfl, rfl, rfl⟩
  · exact .inl ⟨none, 1, .saw ⟨3, 1, by simp [exFollow], by simp [exFollow]⟩, rfl, rfl, rfl⟩
  · exact .inl ⟨some 2, 3, .did (t := 14) (id' := 2) (p := 2) (by simp [exFollow]) (by simp [exFollow]) (by simp [exFollow, exWork]), rfl, rfl, rfl⟩

theorem exUpNext_lt (p : Option Nat) (k : Nat) (h : exUpNext p = some k) : ∀ a ∈ p, a < k := by
  intro a ha
  cases ha
  simp [exUpNext] at h
  omega

example : ∃ ks, OneByOne exUpNext none ks ∧
    ofSource "up" (appendAll (fun _ => True) Spec.Db.empty (exFollowDone.map (·.req))).2.log = [] ++ outputs "up" exResults ks ∧ 2 ∈ ks ∧ 3 ∈ ks := by
  obtain ⟨ks, h1, -, h3, h4⟩ := C76_linear exFollow_linear exUpNext_lt exFollow_works
  exact ⟨ks, h1, h3, h4 ⟨12, 2, exWork 2, .ok 2⟩ (by simp [exFollowDone]) 2 rfl rfl 2 rfl,
    h4 ⟨17, 4, exWork 3, .ok 3⟩ (by simp [exFollowDone]) 3 rfl rfl 3 rfl⟩

example : OneByOne exUpNext none [1, 2, 3] ∧
    ofSource "up" (appendAll (fun _ => True) Spec.Db.empty (exFollowDone.map (·.req))).2.log = outputs "up" exResults [1, 2, 3] := by
  refine ⟨⟨rfl, rfl, rfl, trivial⟩, ?_⟩
  decide +kernel

/-- The database itself does not notice when positions are left out. -/
theorem C76_gap_false :
    let d := (Db.append MB exEnv (exWork 1) .good MemDb.empty).2
    (Db.append MB exEnv (exWork 5) .good d).1 = .ok 2 := by
  decide +kernel

/-- Why `Reached.did` is about appends without a condition: an append with the same events and another position of the source counts as a
repeat and is answered with success, but its position is not recorded. -/
theorem C76_repeat_false :
    let r (k : Nat) : Request := ⟨[exEv 1], some ⟨exQ, none⟩, some ⟨"up", k⟩⟩
    let x := Db.append MB exEnv (r 1) .good MemDb.empty
    let y := Db.append MB exEnv (r 2) .good x.2
    x.1 = .ok 1 ∧ y.1 = .ok 1 ∧ y.2.track = [("up", 1)] := by
  decide +kernel

end Examples

end Uma.Props
