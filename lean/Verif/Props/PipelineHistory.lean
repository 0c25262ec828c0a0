import Verif.Page.PipelineHistory
import Verif.Props.History
import Verif.Props.PipelineReaders

/-!
# Histories with the pipelined writer: C64
-/

namespace Uma.Props
open Uma.Spec Uma.Db Uma.Page Uma.Mvcc

variable {c : Conf} {kw : Nat}

section Steps
variable {hc : ConfOk c kw} {H : String → TagHash} {GF GB : Spec.Db → Spec.Db → Prop} {s : Spec.Db} {σ σ' : PSys}

theorem PSysOfG.quiet (hI : PSysOfG GF GB c hc H σ s) (hq : PQuiet c Careful σ σ') : PSysOfG GF GB c hc H σ' s := by
  cases hq with
  | reader hr hx =>
    obtain ⟨hp, h, PE, PT, PK, PF, ix, F, I⟩ := hI
    exact ⟨hp, h, PE, PT, PK, PF, ix, F, I.reader hr hx⟩
  | evict p => exact hI.evict _
  | load _ _ hr => exact hI.load hr
  | scribble hf ht hcache => exact hI.scribble hf ht hcache

theorem PQuiet.same {guard : PSys → Prop} (hq : PQuiet c guard σ σ') : σ'.st.fly = σ.st.fly ∧ σ'.bld = σ.bld := by
  cases hq <;> exact ⟨rfl, rfl⟩

theorem PSysOfG.liveOf (hI : PSysOfG GF GB c hc H σ s) : LiveOf c hc H σ.st.db s := by
  obtain ⟨hp, h, PE, PT, PK, PF, ix, F, I⟩ := hI
  exact ⟨hp, h, PE, PT, PK, PF, ix, F, I.live⟩

/-- What an open reader sees: the database it looked at. -/
theorem PSysOfG.sees {env : Env} (he : EnvOk env) (hI : PSysOfG GF GB c hc env.H σ s) {h : Codec.Header} {d0 : PDb} {pend : List (Nat × Codec.Node)}
    (hl : Phase.live h d0 pend ∈ σ.rd) {s0 : Spec.Db} (h0 : LiveOf c hc env.H d0 s0) : ShowsAt c env (σ.st.db.base c) h s0 := by
  obtain ⟨hp, h1, PE, PT, PK, PF, ix, F, I⟩ := hI
  obtain ⟨K, -, hrd⟩ := I.stage
  obtain ⟨-, hp0, PE0, PT0, PK0, PF0, ix0, F0, s1, L0, hk, -⟩ := hrd _ hl
  obtain ⟨hp1, h2, PE1, PT1, PK1, PF1, ix1, F1, L1⟩ := h0
  obtain ⟨e1, e2, e3, e4⟩ := L0.unique L1
  subst e1 e2 e3
  refine LiveAt.showsAt he L1 fun p n hpn => ?_
  have hpn := (e4 _).mp hpn
  have hb := L0.body (mem_ids_of hpn)
  obtain ⟨hr1, hr2⟩ := (hk _ hpn).1
  unfold PDb.base PDb.read
  rw [if_neg (by omega)]
  cases hcp : σ.st.db.cache p with
  | some m => simp only [hr2 m hcp]; rfl
  | none => rw [I.live.width, hr1]; rfl

end Steps

/-! ## The invariant -/

section World
open Classical

/-- The batch in flight is that of the requests `fj`. -/
def FliesWith (c : Conf) (fj : List Job) (fly : Option Flight) (s s' : Spec.Db) : Prop := ∀ f, fly = some f → Gives c fj f.results s s'

/-- The batch being built is that of the requests `bj`. -/
def BuiltWith (c : Conf) (bj : List Job) (bld : Option (Batch PW × Option Nat)) (s s' : Spec.Db) : Prop :=
  ∀ b o, bld = some (b, o) → Gives c bj b.results s s'

/-- `A`: what happened; `fj`: the requests in flight, `bj`: those of the batch built. -/
structure PWInv (c : Conf) {kw : Nat} (hc : ConfOk c kw) (env : Env) (s : Spec.Db) (W : PWorld) (A : List Done) (fj bj : List Job)
    (τ : Nat → Nat) : Prop where
  book : Book (Accepted c.g.pageSize) s (bj ++ appendJobs W.queue) fj W.out W.now W.hist A
  after : AfterOkAll W.queue
  fly : ∀ f, W.sys.st.fly = some f → f.responders = fj.map (·.id) ∧ f.results.length = fj.length
  landed : W.sys.st.fly = none → fj = []
  bld : ∀ b o, W.sys.bld = some (b, o) → b.responders = bj.map (·.id) ∧ b.results.length = bj.length ∧ ∀ i e, b.abort = some (i, e) → Fatal e
  idle : W.sys.bld = none → bj = []
  sys : PSysOfG (FliesWith c fj W.sys.st.fly) (BuiltWith c bj W.sys.bld) c hc env.H W.sys (appendAll (Accepted c.g.pageSize) s (A.map (·.req))).2
  readers : RInv c hc env s A W.names W.sys.rd W.hist W.now τ

variable {hc : ConfOk c kw} {env : Env} {s : Spec.Db} {W W' : PWorld} {A : List Done} {fj bj : List Job} {τ : Nat → Nat}

theorem failAll_fst (rs : List Nat) (e : Err) : (failAll rs e).map (·.1) = rs := by
  unfold failAll
  rw [List.map_map]
  exact List.map_id _

theorem failAll_fails {rs : List Nat} {e : Err} (he : Fatal e) {y : Answer} (hy : y ∈ failAll rs e) : Failure y.2 := by
  obtain ⟨x, -, rfl⟩ := List.mem_map.mp hy
  exact failure_of_fatal he

theorem abort_fails {rs : List Nat} {i : Nat} {e : Err} (he : Fatal e) {y : Answer} (hy : y ∈ abortAnswers rs i e) : Failure y.2 := by
  simp only [abortAnswers, List.mem_map] at hy
  obtain ⟨x, -, rfl⟩ := hy
  simp only
  split
  · exact failure_of_fatal he
  · exact failure_of_fatal (fatal_shadow he)

theorem since_eq {st st' : Pipe} {as : List Answer} (h : st'.answers = st.answers ++ as) : st'.since st = as := by
  unfold Pipe.since
  rw [h, List.drop_left]

/-- Nothing going on. -/
theorem PWInv.rest (hb : Book (Accepted c.g.pageSize) s (appendJobs W.queue) [] W.out W.now W.hist A) (ha : AfterOkAll W.queue)
    (hf : W.sys.st.fly = none) (hbl : W.sys.bld = none)
    (hs : ∀ GF GB, PSysOfG GF GB c hc env.H W.sys (appendAll (Accepted c.g.pageSize) s (A.map (·.req))).2)
    (hr : RInv c hc env s A W.names W.sys.rd W.hist W.now τ) : PWInv c hc env s W A [] [] τ :=
  ⟨hb, ha, (fun f h => by rw [hf] at h; cases h), fun _ => rfl, (fun b o h => by rw [hbl] at h; cases h), fun _ => rfl, hs _ _, hr⟩

theorem PWInv.step (hg : c.g.pageSize = defaultPageSize) (he : EnvOk env) (hH : ∀ t, Codec.NormalizedTo kw (env.H t))
    (I : PWInv c hc env s W A fj bj τ) (hs : PWStep c env Careful W W') : ∃ A' fj' bj' τ', PWInv c hc env s W' A' fj' bj' τ' := by
  have hpast := I.book.past
  cases hs with
  | @quiet σ hq =>
    obtain ⟨q1, q2⟩ := PQuiet.same hq
    have hsys := PSysOfG.quiet I.sys hq
    rw [← q1, ← q2] at hsys
    suffices ∃ τ', RInv c hc env s A W.names σ.rd W.hist (W.now + 1) τ' by
      obtain ⟨τ', hR⟩ := this
      exact ⟨A, fj, bj, τ', I.book.tick, I.after, fun f h => I.fly f (q1 ▸ h), fun h => I.landed (q1 ▸ h), fun b o h => I.bld b o (q2 ▸ h),
        fun h => I.idle (q2 ▸ h), hsys, hR⟩
    have hlive := PSysOfG.liveOf I.sys
    have hR := I.readers
    generalize W.sys = σ0 at hq hlive hR
    cases hq with
    | reader hr => exact hR.step hpast I.book.done hr hlive
    | evict p => exact ⟨τ, hR.tick hpast⟩
    | load => exact ⟨τ, hR.tick hpast⟩
    | scribble => exact ⟨τ, hR.tick hpast⟩
  | @ask j ha hn =>
    have hq : appendJobs (W.queue ++ [.append j]) = appendJobs W.queue ++ [j] := appendJobs_append _ _
    refine ⟨A, fj, bj, τ, ?_, ?_, I.fly, I.landed, I.bld, I.idle, I.sys, ?_⟩
    · show Book _ _ (bj ++ appendJobs (W.queue ++ [.append j])) _ _ _ _ _
      rw [hq, ← List.append_assoc]; exact I.book.ask hn
    · intro i hi
      rw [show appendJobs _ = _ from hq] at hi
      rcases List.mem_append.mp hi with hi | hi
      · exact I.after i hi
      · rw [List.mem_singleton.mp hi]; exact ha
    · have := I.readers.note (B := []) (e := .asked j.id j.req) hpast (by simp) trivial
      rwa [List.append_nil] at this
  | @take st r rd j q max vis io b q' hσ hqu hio hb =>
    have hbj : bj = [] := I.idle (by rw [hσ])
    subst hbj
    have hI := I.sys
    rw [hσ] at hI
    obtain ⟨js, hjs, hJ⟩ := hI.build he hH hio (hqu ▸ I.after) hb
    have hfly := I.fly
    have hland := I.landed
    have hR := I.readers.tick hpast
    rw [hσ] at hfly hland hR
    refine ⟨A, fj, js, τ, ?_, ?_, hfly, hland, ?_, (fun h => by cases h), ?_, hR⟩
    · have hB := I.book.tick
      rw [hqu, hjs.split] at hB
      exact hB
    · intro i hi
      refine I.after i ?_
      rw [hqu, hjs.split]
      exact List.mem_append_right _ hi
    · intro b' o' h
      cases h
      exact ⟨hjs.resp, hjs.len, hjs.bad⟩
    · refine hJ.mono (fun _ _ h => h) fun s1 s2 h b' o' h' => ?_
      cases h'
      exact h
  | @land st r rd bld f io st' hσ hf ha =>
    have hI := I.sys
    rw [hσ] at hI
    have hff := I.fly f (by rw [hσ]; exact hf)
    have hbld := I.bld
    have hidle := I.idle
    rw [hσ] at hbld hidle
    obtain ⟨s', h1, -, h2, h3⟩ := hI.land hf ha (GF' := FliesWith c [] none)
    obtain ⟨h4, h5⟩ := h2 f hf
    have hfl : st'.fly = none := by
      have := acknowledge_fly c io f st
      rw [ha] at this; exact this
    have hans : st'.answers = st.answers ++ f.responders.zip f.results := by
      unfold Pipe.acknowledge at ha
      split at ha
      · cases ha; rfl
      · cases ha
    rw [← final_append fj (W.now + 1) hff.2.symm] at h5
    have hall : ∀ x ∈ A ++ doneAt (W.now + 1) fj f.results, x.time ≤ W.now + 1 := by
      intro x hx
      rcases List.mem_append.mp hx with hx | hx
      · have := I.book.done x hx; omega
      · have := (mem_doneAt hx).1; omega
    refine ⟨A ++ doneAt (W.now + 1) fj f.results, [], bj, τ, ?_, I.after, (fun f' h' => ?_), fun _ => rfl, hbld, hidle, ?_, ?_⟩
    · have := (I.book.land hff.2.symm h4).noteNow (fun x hx => by have := hpast x hx; omega) (.announced f.head) (fun _ _ h => by cases h)
      show Book _ _ _ _ (W.out ++ st'.since st) _ _ _
      rw [since_eq hans, hff.1]
      exact this
    · rw [show st'.fly = some f' from h'] at hfl; cases hfl
    · show PSysOfG (FliesWith c [] st'.fly) _ c hc env.H _ _
      rw [hfl, ← h5]
      exact h1
    · have hR := I.readers
      rw [hσ] at hR
      refine hR.next hpast (fun x hx => (mem_doneAt hx).1) (fun x hx => List.mem_append_left _ hx) (fun t i l a h => ?_) fun t hd h => ?_
      · rcases mem_note.mp h with h | ⟨-, h⟩
        · exact .inl h
        · cases h
      · rcases mem_note.mp h with h | ⟨rfl, h1⟩
        · exact .inl h
        · cases h1
          refine .inr ⟨rfl, ?_⟩
          rw [stateAt_all hall, h3, h5]
  | @fail st r rd bld f io st' hσ hf ha =>
    have hI := I.sys
    rw [hσ] at hI
    have hff := I.fly f (by rw [hσ]; exact hf)
    have hfl : (st'.rollback c r.min).fly = none := by
      have := acknowledge_fly c io f st
      rw [ha] at this
      rw [rollback_fly]; exact this
    obtain ⟨-, e, hfat, hans⟩ := hI.fail hf ha (GF' := fun _ _ => True) (GB' := fun _ _ => True)
    refine ⟨A, [], [], τ, .rest ?_ I.after hfl rfl (fun GF GB => (hI.fail hf ha).1) ?_⟩
    · show Book _ _ _ _ (W.out ++ ((st'.rollback c r.min).since st ++ dropped bld)) _ _ _
      rw [since_eq hans]
      refine (I.book.tick.shift (js' := fj ++ bj) (q' := appendJobs W.queue) (List.append_assoc _ _ _)).refuse ?_ fun y hy => ?_
      · rw [List.map_append, List.map_append, failAll_fst, hff.1]
        congr 1
        cases hb : bld with
        | none => rw [I.idle (by rw [hσ]; exact hb)]; rfl
        | some x =>
          show (failAll x.1.responders _).map _ = _
          rw [failAll_fst, (I.bld x.1 x.2 (by rw [hσ]; exact hb)).1]
      · rcases List.mem_append.mp hy with hy | hy
        · exact failAll_fails hfat hy
        · cases bld with
          | none => cases hy
          | some x => exact failAll_fails ⟨rfl, rfl, rfl⟩ hy
    · have := I.readers.tick hpast
      rw [hσ] at this
      exact this
  | @dispatch st r rd b o io hσ hf hio =>
    have hI := I.sys
    rw [hσ] at hI
    obtain ⟨hb1, hb2, hb3⟩ := I.bld b o (by rw [hσ])
    have hfj : fj = [] := I.landed (by rw [hσ]; exact hf)
    subst hfj
    have hR := I.readers.tick hpast
    rw [hσ] at hR
    obtain ⟨h1, h2⟩ := hI.dispatch hg hf (io := io) (GB' := BuiltWith c [] none)
    rcases h2 with ⟨h2, f, h3, h4, h5⟩ | ⟨h2, as, h3, h4⟩
    · refine ⟨A, bj, [], τ, ?_, I.after, fun f' h => ?_, (fun h => ?_), (fun _ _ h => by cases h), fun _ => rfl, ?_, hR⟩
      · show Book _ _ _ _ (W.out ++ (st.dispatch c io b).since st) _ _ _
        rw [since_eq (as := []) (by rw [h2, List.append_nil]), List.append_nil]
        exact I.book.tick.shift rfl
      · rw [show (st.dispatch c io b).fly = some f' from h] at h3
        cases h3
        exact ⟨h4.trans hb1, by rw [h5]; exact hb2⟩
      · rw [show (st.dispatch c io b).fly = none from h] at h3
        cases h3
      · refine h1.mono (fun s1 s2 h f' h' => ?_) fun _ _ h => h
        rw [show (st.dispatch c io b).fly = some f' from h'] at h3
        cases h3
        rw [h5]
        exact h b o rfl
    · refine ⟨A, [], [], τ, .rest ?_ I.after h2 rfl (fun GF GB => ?_) hR⟩
      · show Book _ _ _ _ (W.out ++ (st.dispatch c io b).since st) _ _ _
        rw [since_eq h3]
        refine (I.book.tick.shift (js' := bj) (q' := appendJobs W.queue) rfl).refuse ?_ fun y hy => ?_
        · rcases h4 with ⟨i, e, -, rfl⟩ | ⟨e, -, rfl⟩
          · rw [abortAnswers_fst, hb1]
          · rw [failAll_fst, hb1]
        · rcases h4 with ⟨i, e, h, rfl⟩ | ⟨e, h, rfl⟩
          · exact abort_fails (hb3 i e h) hy
          · exact failAll_fails h hy
      · exact h1.idle h2 rfl
  | @answer l x l' ho =>
    refine ⟨A, fj, bj, τ, ?_, I.after, I.fly, I.landed, I.bld, I.idle, I.sys, ?_⟩
    · have := I.book
      rw [ho] at this
      exact this.answer
    · have := I.readers.note (B := []) (e := .answered x.1 x.2) hpast (by simp) trivial
      rwa [List.append_nil] at this
  | @«open» i hi =>
    exact ⟨A, fj, bj, τ, I.book.note _ (fun _ _ h => by cases h), I.after, I.fly, I.landed, I.bld, I.idle, I.sys.arrive,
      I.readers.open hpast hi⟩
  | @look k i h d0 pend l a hk hph hl =>
    have hlk := (I.readers.looking k i _ hk hph).1 h d0 ⟨rfl, rfl⟩
    have ha := PSysOfG.sees he I.sys (List.mem_of_getElem? hph) hlk.2.2
    rw [ShowsAt.look ha l] at hl
    refine ⟨A, fj, bj, τ, I.book.note _ (fun _ _ h => by cases h), I.after, I.fly, I.landed, I.bld, I.idle, I.sys, ?_⟩
    have := I.readers.next (B := []) (hist' := W.hist ++ [(W.now + 1, .saw i l a)]) hpast (by simp) (fun x hx => List.mem_append_left _ hx)
      (fun t i' l' a' h => ?_) fun t hd h => ?_
    · rwa [List.append_nil] at this
    · rcases mem_note.mp h with h | ⟨rfl, h1⟩
      · exact .inl h
      · cases h1
        exact .inr ⟨rfl, k, _, hk, hph, fun h => h, ⟨_, _, rfl, rfl⟩, by cases hl; rfl⟩
    · rcases mem_note.mp h with h | ⟨-, h⟩
      · exact .inl h
      · cases h
  | @crash f kw0 d' st' hd hf hk ho hst =>
    have hfl : st'.fly = none := by
      unfold Pipe.start at hst
      split at hst <;> cases hst
      rfl
    obtain ⟨hp, h, PE, PT, PK, PF, ix, F, J⟩ := I.sys
    obtain ⟨d2, s', h1, h2, -, h3⟩ := J.crash hd hf hk
    rw [ho] at h1; cases h1
    rcases h3 with rfl | ⟨h3, h4⟩
    · refine ⟨A, [], [], τ, .rest (I.book.note _ (fun _ _ h => by cases h)).drop (by intro i hi; cases hi) hfl rfl
        (fun _ _ => .opened h2 hst) ?_⟩
      have := I.readers.note (B := []) (e := .crashed) hpast (by simp) trivial
      rw [List.append_nil] at this
      exact this.drop
    · obtain ⟨fl, hfly⟩ := Option.isSome_iff_exists.mp h3
      obtain ⟨h5, h6⟩ := h4 fl hfly
      have hlen := (I.fly fl hfly).2.symm
      rw [← final_append fj (W.now + 1) hlen] at h6
      subst h6
      refine ⟨A ++ doneAt (W.now + 1) fj fl.results, [], [], τ, .rest ?_ (by intro i hi; cases hi) hfl rfl (fun _ _ => .opened h2 hst) ?_⟩
      · exact ((I.book.land hlen h5).noteNow (fun x hx => by have := hpast x hx; omega) .crashed (fun _ _ h => by cases h)).drop
      · exact (I.readers.note (e := .crashed) hpast (fun x hx => (mem_doneAt hx).1) trivial).drop

theorem PWInv.linear (I : PWInv c hc env s W A fj bj τ) : Linear (Accepted c.g.pageSize) s W.hist A τ :=
  ⟨I.book.clock, I.book.sorted, I.book.once, I.book.legal, I.book.asked, I.book.answered, I.book.onceAnswered, I.book.askedFirst,
    fun t i l a h => by obtain ⟨h1, h2, -, h3⟩ := I.readers.looks t i l a h; exact ⟨h1, h2, h3⟩, I.readers.heads⟩

theorem pwinv {d : PDb} {st : Pipe} (hg : c.g.pageSize = defaultPageSize) (he : EnvOk env) (hH : ∀ t, Codec.NormalizedTo kw (env.H t))
    (hd : LiveS c hc env.H d s) (hst : Pipe.start c d = .ok st) (hw : PWorlds c env Careful (.init st) W) : ∃ A fj bj τ, PWInv c hc env s W A fj bj τ := by
  induction hw with
  | refl =>
    refine ⟨[], [], [], fun _ => 0, .rest .init (by intro i hi; cases hi) ?_ rfl (fun _ _ => .opened hd hst) .init⟩
    unfold Pipe.start at hst
    split at hst <;> cases hst
    rfl
  | tail _ hs ih =>
    obtain ⟨A, fj, bj, τ, I⟩ := ih
    exact I.step hg he hH hs

end World

/-! ## C64 -/

open Classical in
/-- C64.  The same with the pipelined writer, with pages of the default size and as long as no reader looks at the headers for the second time
while a batch that has been built on one in flight believes that there is no reader. -/
theorem C64_linearizable_partial {env : Env} (hg : c.g.pageSize = defaultPageSize) (he : EnvOk env) (hc : ConfOk c kw)
    (hH : ∀ t, Codec.NormalizedTo kw (env.H t)) {d : PDb} {s : Spec.Db} (hd : LiveS c hc env.H d s) {st : Pipe} (hst : Pipe.start c d = .ok st)
    {W : PWorld} (hw : PWorlds c env Careful (.init st) W) :
    ∃ A τ, Linear (Accepted c.g.pageSize) s W.hist A τ ∧
      Shows c env W.sys.st.db (appendAll (Accepted c.g.pageSize) s (A.map (·.req))).2 := by
  obtain ⟨A, fj, bj, τ, I⟩ := pwinv hg he hH hd hst hw
  obtain ⟨hp, h, PE, PT, PK, PF, ix, F, J⟩ := I.sys
  exact ⟨A, τ, I.linear, shows he hc hH ⟨hp, h, PE, PT, PK, PF, ix, F, J.live, J.safe⟩⟩

/-! ## The turns of the writer thread -/

/-- What is appended to the answers and to the announced heads. -/
def Adds (st st' : Pipe) (as : List Db.Answer) (hs : List (Option Nat)) : Prop :=
  st'.answers = st.answers ++ as ∧ st'.heads = st.heads ++ hs

theorem rollback_adds (o : Option Nat) (st : Pipe) : Adds st (st.rollback c o) [] [] := by
  unfold Pipe.rollback
  split <;> simp [Adds]

theorem Adds.rollback {st st' : Pipe} {as : List Db.Answer} {hs : List (Option Nat)} (h : Adds st st' as hs) (o : Option Nat) :
    Adds st (st'.rollback c o) as hs := by
  obtain ⟨h1, h2⟩ := rollback_adds (c := c) o st'
  rw [List.append_nil] at h1 h2
  exact ⟨h1.trans h.1, h2.trans h.2⟩

theorem answers_adds (st : Pipe) (as : List Db.Answer) : Adds st { st with answers := st.answers ++ as } as [] :=
  ⟨rfl, (List.append_nil _).symm⟩

theorem dispatch_adds (io : PipeIO) (b : Batch PW) (st : Pipe) : ∃ as, Adds st (st.dispatch c io b) as [] := by
  unfold Pipe.dispatch
  split
  · exact ⟨_, (answers_adds st _).rollback _⟩
  · split
    · exact ⟨_, (answers_adds st _).rollback _⟩
    · exact ⟨[], (List.append_nil _).symm, (List.append_nil _).symm⟩

theorem acknowledge_adds {io : PipeIO} {f : Flight} {st st' : Pipe} {ok : Bool} (h : st.acknowledge c io f = (ok, st')) :
    ∃ as, Adds st st' as (if ok then [f.head] else []) := by
  unfold Pipe.acknowledge at h
  split at h
  · cases h
    exact ⟨_, rfl, rfl⟩
  · cases h
    exact ⟨_, rfl, (List.append_nil _).symm⟩

theorem Adds.since {st st' : Pipe} {as : List Db.Answer} {hs : List (Option Nat)} (h : Adds st st' as hs) : st'.since st = as :=
  since_eq h.1

/-- C64: the turns of the writer thread (`Pipe.turn`, for which C31 and C32 are proved) are steps of this system: it takes what the turn takes
from the queue, sends the answers the turn sends, and announces the heads the turn announces. -/
theorem C64_turns {env : Env} {hc : ConfOk c kw} {s : Spec.Db} {fj : List Job} {st st' : Pipe} (I : PipeAt c hc env.H st fj s)
    {guard : PSys → Prop} {max vis : Nat} {idle : Bool} {io : PipeIO} {q' : List Msg} {W : PWorld}
    (h : st.turn c env max idle vis io W.queue = .go q' st') {r : Registry} (hio : io.oldest = r.min) {rd : List Phase}
    (hσ : W.sys = ⟨st, r, rd, none⟩) :
    ∃ W' as hs, PWorlds c env guard W W' ∧ W'.sys = ⟨st', r, rd, none⟩ ∧ W'.queue = q' ∧ W'.names = W.names ∧ Adds st st' as hs ∧
      W'.out = W.out ++ as ∧ ∃ l, W'.hist = W.hist ++ l ∧ l.map (·.2) = hs.map .announced := by
  have hopen : ∃ wr, findReusable io.oldest { st.wr with base := wetBase c (st.seen c io.junk) st.wet } = (.ok (), wr) := by
    rcases I with ⟨-, I⟩ | ⟨f, s', I, -⟩
    · obtain ⟨wr, h1, -⟩ := I.opens io.junk io.oldest
      exact ⟨wr, h1⟩
    · obtain ⟨wr, h1, -⟩ := I.opens io
      exact ⟨wr, h1⟩
  have fail : ∀ {V : PWorld} {f : Flight} {st1 : Pipe} {bld}, V.sys = ⟨st, r, rd, bld⟩ → st.fly = some f → st.acknowledge c io f = (false, st1) →
      ∃ as, Adds st st1 as [] ∧ PWStep c env guard V { V.silent
        ⟨{ st1.rollback c io.oldest with answers := (st1.rollback c io.oldest).answers ++ dropped bld }, r, rd, none⟩ with
          out := V.out ++ (as ++ dropped bld) } := by
    intro V f st1 bld hV hf hk
    obtain ⟨as, h1⟩ := acknowledge_adds hk
    refine ⟨as, h1, ?_⟩
    have := PWStep.fail (guard := guard) (env := env) hV hf hk
    rw [Adds.since (Adds.rollback h1 r.min)] at this
    rw [hio]
    exact this
  have wait : ∀ {f : Flight}, st.fly = some f → st.wait c io W.queue f = .go q' st' →
      ∃ W' as hs, PWorlds c env guard W W' ∧ W'.sys = ⟨st', r, rd, none⟩ ∧ W'.queue = q' ∧ W'.names = W.names ∧ Adds st st' as hs ∧
      W'.out = W.out ++ as ∧ ∃ l, W'.hist = W.hist ++ l ∧ l.map (·.2) = hs.map .announced := by
    intro f hf hw
    unfold Pipe.wait at hw
    cases hk : st.acknowledge c io f with
    | mk ok st1 =>
      rw [hk] at hw
      cases ok <;> simp only at hw <;> cases hw
      · obtain ⟨as, h1, h2⟩ := fail (bld := none) hσ hf hk
        refine ⟨_, as, [], .single h2, ?_, rfl, rfl, h1.rollback _, ?_, [], (List.append_nil _).symm, rfl⟩
        · simp [PWorld.silent, dropped]
        · simp [dropped]
      · obtain ⟨as, h1⟩ := acknowledge_adds hk
        refine ⟨_, as, [f.head], .single (.land hσ hf hk), rfl, rfl, rfl, h1, ?_, _, rfl, rfl⟩
        show W.out ++ st'.since st = _
        rw [h1.since]
  have batch : ∀ {j : Job} {q1 : List Msg}, W.queue = .append j :: q1 → st.batch c env max vis io j q1 = .go q' st' →
      ∃ W' as hs, PWorlds c env guard W W' ∧ W'.sys = ⟨st', r, rd, none⟩ ∧ W'.queue = q' ∧ W'.names = W.names ∧ Adds st st' as hs ∧
      W'.out = W.out ++ as ∧ ∃ l, W'.hist = W.hist ++ l ∧ l.map (·.2) = hs.map .announced := by
    intro j q1 hq hb
    obtain ⟨wr, hwr⟩ := hopen
    unfold Pipe.batch at hb
    simp only [hwr] at hb
    split at hb
    · cases hb
    next b1 hb1 =>
    split at hb
    · cases hb
    next b q2 hdr =>
    cases hb
    have s1 : PWStep c env guard W { W.silent ⟨st, r, rd, some (b, r.min)⟩ with queue := q' } :=
      .take hσ hq hio ⟨wr, b1, hwr, hb1, hdr⟩
    unfold Pipe.finish
    cases hf : st.fly with
    | none =>
      obtain ⟨as, h1⟩ := dispatch_adds (c := c) io b st
      refine ⟨_, as, [], (Relation.ReflTransGen.single s1).tail (.dispatch rfl hf hio), rfl, rfl, rfl, h1, ?_, [], (List.append_nil _).symm, rfl⟩
      show W.out ++ (st.dispatch c io b).since st = _
      rw [h1.since]
    | some f =>
      simp only
      cases hk : st.acknowledge c io f with
      | mk ok st1 =>
        cases ok with
        | false =>
          obtain ⟨as, h1, h2⟩ := fail (V := { W.silent ⟨st, r, rd, some (b, r.min)⟩ with queue := q' }) (bld := some (b, r.min)) rfl hf hk
          refine ⟨_, _, [], (Relation.ReflTransGen.single s1).tail h2, rfl, rfl, rfl, ?_, rfl, [], (List.append_nil _).symm, rfl⟩
          obtain ⟨a1, a2⟩ := h1.rollback (c := c) io.oldest
          refine ⟨?_, a2⟩
          show (st1.rollback c io.oldest).answers ++ _ = _
          rw [a1, List.append_assoc]
          rfl
        | true =>
          have hfly : st1.fly = none := by
            have := acknowledge_fly c io f st
            rw [hk] at this; exact this
          obtain ⟨as1, h1⟩ := acknowledge_adds hk
          obtain ⟨as, h2⟩ := dispatch_adds (c := c) io b st1
          refine ⟨_, as1 ++ as, [f.head], ((Relation.ReflTransGen.single s1).tail (.land rfl hf hk)).tail (.dispatch rfl hfly hio), rfl, rfl, rfl,
            ⟨?_, ?_⟩, ?_, _, rfl, rfl⟩
          · rw [← List.append_assoc, ← h1.1]; exact h2.1
          · have := h2.2
            rw [List.append_nil, h1.2] at this
            exact this
          · show W.out ++ st1.since st ++ (st1.dispatch c io b).since st1 = _
            rw [h1.since, h2.since, List.append_assoc]
  have take : ∀ st0 : Pipe, st0 = st → st0.take c env max vis io W.queue = .go q' st' →
      ∃ W' as hs, PWorlds c env guard W W' ∧ W'.sys = ⟨st', r, rd, none⟩ ∧ W'.queue = q' ∧ W'.names = W.names ∧ Adds st st' as hs ∧
      W'.out = W.out ++ as ∧ ∃ l, W'.hist = W.hist ++ l ∧ l.map (·.2) = hs.map .announced := by
    rintro _ rfl ht
    cases hq : W.queue with
    | nil => rw [hq] at ht; cases ht
    | cons m q1 =>
      cases m with
      | shutdown => rw [hq] at ht; cases ht
      | append j => rw [hq] at ht; exact batch hq ht
  unfold Pipe.turn at h
  cases hf : st.fly with
  | none =>
    rw [hf] at h
    exact take st rfl h
  | some f =>
    rw [hf] at h
    cases idle with
    | true => exact wait hf h
    | false => exact take st rfl h

/-! ## A reader opened at the wrong moment, and one that is not -/

section Examples

theorem exPReader {guard : PSys → Prop} {W : PWorld} {st : Pipe} {r : Registry} {rd : List Phase} {bld : Option (Batch PW × Option Nat)}
    {h : Codec.Header} (hd : observe st.db.m.h0 st.db.m.h1 = .ok h) (hW : W.sys = ⟨st, r, rd ++ [.start], bld⟩)
    (hg : guard ⟨st, r.register h.tsn, rd ++ [.registered h], bld⟩) :
    PWorlds exConf exConstEnv guard W { W with sys := ⟨st, r.register h.tsn, rd ++ [.live h st.db []], bld⟩, now := W.now + 5 } := by
  have step : ∀ {r1 r2 : Registry} {ph ph' : Phase} {n : Nat}, RStep exConf st.db r1 ph st.db r2 ph' →
      ((∃ h, ph = .registered h) → guard ⟨st, r1, rd ++ [ph], bld⟩) →
      PWStep exConf exConstEnv guard { W with sys := ⟨st, r1, rd ++ [ph], bld⟩, now := W.now + n }
        { W with sys := ⟨st, r2, rd ++ [ph'], bld⟩, now := W.now + (n + 1) } := by
    intro r1 r2 ph ph' n h hg
    exact .quiet (.reader (rd := rd) (rd' := []) h hg)
  have e : W = { W with sys := ⟨st, r, rd ++ [.start], bld⟩, now := W.now + 0 } := by rw [← hW]; rfl
  have := ((((Relation.ReflTransGen.single (step (n := 0) (.load0 st.db r) fun ⟨_, h⟩ => by cases h)).tail
    (step (.load1 hd) fun ⟨_, h⟩ => by cases h)).tail (step (.register _ _ _) fun ⟨_, h⟩ => by cases h)).tail
    (step (.reload0 _ _ _) fun _ => hg)).tail (step (.confirm hd rfl) fun ⟨_, h⟩ => by cases h)
  rw [← e] at this
  exact this

theorem lookAt_all {env : Env} {v : Nat → Option Codec.Node} {h : Codec.Header} {l : List SeqEvent}
    (hl : readConditional env.H env.ord (snapOf c v (turns c h.nextPosition h.nextPage) h.eventsRoot h.tagsRoot) ⟨[]⟩ none false none false
      Cancel.never = .ok l) : lookAt c env v h (.read none none false none) = .ok (.events l (headOfNext h.nextPosition)) := by
  unfold lookAt
  simp only [Option.getD_none]
  rw [hl]

theorem not_opened {i : Nat} {hist : History} {l : List Happening} (h : hist.map (·.2) = l) (hl : .opened i ∉ l) : ∀ t, (t, .opened i) ∉ hist := by
  intro t ht
  exact hl (h ▸ List.mem_map.mpr ⟨_, ht, rfl⟩)

open Classical in
/-- C64 fails without the restriction.  A batch of one event is built on one of two events in flight, at a time without readers.  Then a reader is
opened.  Both batches land.  The reader answers `read` with three events and with the head of a database that is empty.  No order of the
calls explains this. -/
theorem C64_linearizable_false : ∃ (d : PDb) (st : Pipe) (W : PWorld), LiveS exConf exConf_ok exConstEnv.H d Spec.Db.empty ∧
    Pipe.start exConf d = .ok st ∧ PWorlds exConf exConstEnv (fun _ => True) (.init st) W ∧
    ∀ A τ, ¬ Linear (Accepted exConf.g.pageSize) Spec.Db.empty W.hist A τ := by
  obtain ⟨d, st0, st1, st2, st3, st4, f, f2, x, io2, E⟩ := exExposed
  have w1 : PWorlds exConf exConstEnv (fun _ => True) (.init st0) _ :=
    .single (.ask (j := ⟨1, exReq, noCancel⟩) (E.after _ (.head _)) (by simp [PWorld.init]))
  obtain ⟨W2, w2, k1, k4, k2, k3⟩ : ∃ W2, PWorlds exConf exConstEnv (fun _ => True) (.init st0) W2 ∧ W2.sys = ⟨st0, [], [], none⟩ ∧ W2.names = [] ∧
      W2.queue = [.append ⟨1, exReq, noCancel⟩, .append exJob2] ∧ W2.hist.map (·.2) = [.asked 1 exReq, .asked exJob2.id exJob2.req] :=
    ⟨_, w1.tail (.ask (j := exJob2) (E.after _ (.tail _ (.head _))) (by simp [PWorld.init, PWorld.note, exJob2])), rfl, rfl, rfl, rfl⟩
  obtain ⟨W3, as, hs, w3, hσ, hq, hn, -, -, l, hl, hl2⟩ := C64_turns (guard := fun _ => True) (.inl ⟨rfl, E.idle⟩) (k2 ▸ E.first) rfl k1
  have w4 := (w2.trans w3).tail (.take hσ hq E.nobody E.build)
  have w5 := w4.tail (.open (i := 7) (not_opened (l := [.asked 1 exReq, .asked exJob2.id exJob2.req] ++ hs.map .announced) (by
    show W3.hist.map _ = _
    rw [hl, List.map_append, k3, hl2]) (by simp)))
  have w6 := w5.trans (exPReader (st := st1) (rd := []) (r := []) E.slots rfl trivial)
  have w7 := w6.tail (.land rfl E.fly E.lands)
  have w8 := w7.tail (.dispatch rfl (io := { io2 with oldest := some 0 }) E.free (show some 0 = (Registry.register 0 []).min by decide))
  rw [E.sent] at w8
  have w9 := w8.tail (.land rfl E.fly2 E.lands2)
  have hread := E.seen
  unfold exSeen at hread
  split at hread
  swap
  · cases hread
  next evs hl =>
  have hevs := Option.some.inj hread
  have w10 := w9.tail (.look (k := 0) (i := 7) (h := initialHeader) (l := .read none none false none) (a := .events evs none)
    (by show (W3.names ++ [7])[0]? = _; rw [hn, k4]; rfl) rfl (by
      exact lookAt_all hl))
  refine ⟨d, st0, _, E.live, E.start, w10, fun A τ hlin => ?_⟩
  have hsaw := (hlin.looks _ 7 (.read none none false none) (.events evs none) (List.mem_append_right _ (List.mem_singleton.mpr rfl))).2.2
  simp only [Look.on, Seen.events.injEq] at hsaw
  obtain ⟨h1, h2⟩ := hsaw
  generalize (stateAt (Accepted exConf.g.pageSize) Spec.Db.empty A (τ 7)).log = log at h1 h2
  cases log with
  | nil =>
    rw [h1] at hevs
    exact absurd hevs (by decide)
  | cons a log => simp [Spec.head] at h2

/-- A reader is opened while the first batch is in flight, none being built on it, and looks only when that has been answered: it sees the old
database.  One opened afterwards sees the new database. -/
theorem exPHistory : ∃ (d : PDb) (st : Pipe) (W : PWorld), LiveS exConf exConf_ok exConstEnv.H d Spec.Db.empty ∧ Pipe.start exConf d = .ok st ∧
    PWorlds exConf exConstEnv Careful (.init st) W ∧
    W.hist.map (·.2) = [.asked 1 exReq, .opened 7, .announced (some 2), .answered 1 (.ok 2), .saw 7 .head (.position none),
      .opened 8, .saw 8 (.read none none false none) ((Look.read none none false none).on exAfter)] := by
  have he : EnvOk exConstEnv := ⟨fun l => List.Perm.refl l⟩
  obtain ⟨m, f0, d, st0, st1, f, hcr, hd0, hgo, hd, hst, ha, -, hT, hf, hresp, hres, han, hhe, hsh, I, hhead, hdb, -⟩ :=
    exInFlightThen [] (fun j hj => by cases hj) (fun j hj => by cases hj) (fun j hj => by cases hj) (fun j hj => by cases hj)
  obtain ⟨m', f', hcr', hS⟩ := create_liveS exConf_ok exConstEnv.H
  rw [hcr] at hcr'
  cases hcr'
  rw [← hd0] at hS
  have hm : m = ⟨⟨0, .header initialHeader⟩, ⟨1, .header initialHeader⟩, tagHashLen⟩ := by
    unfold create at hcr
    split at hcr
    · cases hcr
    split at hcr
    · cases hcr
    · cases hcr; rfl
  have ho : observe st1.db.m.h0 st1.db.m.h1 = .ok initialHeader := by
    rw [hdb, hd0]
    show observe m.h0 m.h1 = _
    rw [hm]; rfl
  obtain ⟨st1', i1, -, i2, -⟩ := start_spec (hc := exConf_ok) (H := exConstEnv.H) hd
  rw [hst] at i1; cases i1
  rcases I.acknowledge exPipeIO with ⟨st2, k1, k2, -, k4, k5, -⟩ | ⟨st2, e, k, -⟩
  swap
  · have := (acknowledge_fault exConf exPipeIO f st1).mpr rfl
    rw [k] at this
    cases this
  have careful : ∀ {st : Pipe} {r : Registry} {rd : List Phase}, Careful ⟨st, r, rd, none⟩ := by
    rintro st r rd ⟨-, b, hb⟩
    cases hb
  obtain ⟨W1, w1, a1, a2, a3, a4, a5⟩ : ∃ W1, PWorlds exConf exConstEnv Careful (.init st0) W1 ∧ W1.sys = ⟨st0, [], [], none⟩ ∧ W1.names = [] ∧
      W1.queue = [.append ⟨1, exReq, noCancel⟩] ∧ W1.hist.map (·.2) = [.asked 1 exReq] ∧ W1.out = [] :=
    ⟨_, .single (.ask (j := ⟨1, exReq, noCancel⟩) (ha _ (.head _)) (by simp [PWorld.init])), rfl, rfl, rfl, rfl, rfl⟩
  obtain ⟨W2, as, hs, w2, hσ, hq, hn, had, hout, l, hl, hl2⟩ := C64_turns (guard := Careful) (.inl ⟨rfl, i2⟩) (a3 ▸ hgo) rfl a1
  obtain ⟨rfl, rfl⟩ : as = [] ∧ hs = [] := by
    obtain ⟨h1, h2⟩ := had
    rw [han] at h1
    rw [hhe] at h2
    exact ⟨(List.append_eq_nil_iff.mp h1.symm).2, (List.append_eq_nil_iff.mp h2.symm).2⟩
  have hl0 : l = [] := List.map_eq_nil_iff.mp hl2
  subst hl0
  rw [List.append_nil] at hl hout
  rw [a2] at hn
  rw [a5] at hout
  have hist2 : W2.hist.map (·.2) = [.asked 1 exReq] := by rw [hl, a4]
  have w3 := (w1.trans w2).tail (.open (i := 7) (not_opened hist2 (by simp)))
  have w4 := w3.trans (exPReader (st := st1) (rd := []) (r := []) (bld := none) ho (by simp [hσ]) careful)
  have w5 := w4.tail (.land rfl hf k1)
  have w6 := w5.tail (.answer (l := []) (x := (1, .ok 2)) (l' := []) (by
    show W2.out ++ st2.since st1 = _
    rw [hout, since_eq k4, hresp, hres]; rfl))
  obtain ⟨hp, h, PE, PT, PK, PF, ix, F, L, S⟩ := k2.live
  have w7 := w6.tail (.look (k := 0) (i := 7) (l := .head) (a := .position none) (by show (W2.names ++ [7])[0]? = _; rw [hn]; rfl) rfl rfl)
  have w8 := w7.tail (.open (i := 8) (not_opened (l := [.asked 1 exReq, .opened 7, .announced f.head, .answered 1 (.ok 2),
    .saw 7 .head (.position none)]) (by simp [PWorld.note, hist2]) (by simp)))
  have w9 := w8.trans (exPReader (st := st2) (rd := [.live initialHeader st1.db []]) (bld := none) L.header_eq rfl careful)
  have w10 := w9.tail (.look (k := 1) (i := 8) (by show (W2.names ++ [7] ++ [8])[1]? = _; rw [hn]; rfl) rfl
    ((LiveAt.showsAt he L L.sees).look (.read none none false none)))
  refine ⟨d, st0, _, hS, hst, w10, ?_⟩
  simp [PWorld.note, hist2, hhead]

open Classical in
/-- So that history can be put in order. -/
example : ∃ (hist : History) (A : List Done) (τ : Nat → Nat), Linear (Accepted exConf.g.pageSize) Spec.Db.empty hist A τ ∧
    hist.map (·.2) = [.asked 1 exReq, .opened 7, .announced (some 2), .answered 1 (.ok 2), .saw 7 .head (.position none),
      .opened 8, .saw 8 (.read none none false none) ((Look.read none none false none).on exAfter)] := by
  obtain ⟨d, st, W, h1, h2, h3, h4⟩ := exPHistory
  obtain ⟨A, τ, h5, -⟩ := C64_linearizable_partial rfl ⟨fun l => List.Perm.refl l⟩ exConf_ok exConstEnv_width h1 h2 h3
  exact ⟨W.hist, A, τ, h5, h4⟩

end Examples

end Uma.Props
