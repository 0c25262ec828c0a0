import Verif.Page.Pipeline
import Verif.Db.ThreadProof

/-!
# Model of the request handler (umadb-server/src/handler.rs), besides `read` (`Verif/Server/Stream.lean`)

No proofs about healthy databases are needed for the answers: what is said here holds whatever the file contains.
-/

namespace Uma.Server
open Uma.Db Uma.Page Uma.Mvcc Uma.Codec

/-- `UmaDbServerRequestHandler::append`, handler.rs 148-176, once the writer thread has stopped or the request is answered.
`sent`: the request got into the queue.  A response channel that was dropped gives an error. -/
def appendReply (sent : Bool) (answers : List Answer) (id : Nat) : Except Err Nat :=
  if sent then
    match answers.lookup id with
    | some a => a
    | none => .error (.io "failed to receive append response from EventStore thread")
  else .error (.io "failed to send append request to EventStore thread")

/-- `UmaDbServerRequestHandler::head`, handler.rs 135-146. -/
def handlerHead (d : PDb) : Except Err (Option Nat) :=
  match latestPage d.m.h0 d.m.h1 with
  | .error _ => .error (.corruption "head failed")
  | .ok p =>
    match asHeader p.node with
    | .error _ => .error (.corruption "head failed")
    | .ok h => .ok (headOfNext h.nextPosition)

/-- The head announced when the server starts, handler.rs 34-40. -/
def initialHead (d : PDb) : Except Err (Option Nat) := do
  let p ← latestPage d.m.h0 d.m.h1
  let h ← asHeader p.node
  return headOfNext h.nextPosition

/-! ## Answers -/

section Answers
variable {δ σ υ ι : Type} {B : Backend δ σ υ ι}

/-- As many results as requests. -/
def Batch.Even (b : Batch σ) : Prop := b.results.length = b.responders.length

theorem stepJob_ids {env : Env} {b b' : Batch σ} {j : Job} (h : stepJob B env b j = .ok b') (he : Batch.Even b) :
    b'.responders = b.responders ++ [j.id] ∧ Batch.Even b' := by
  unfold Batch.Even at he ⊢
  unfold stepJob at h
  simp only at h
  split at h
  · cases h
  · cases h; simp [he]
  · cases h; simp [he]

theorem drain_ids {env : Env} {max : Nat} : ∀ {vis : Nat} {q : List Msg} {b b' : Batch σ} {q' : List Msg},
    drain B env max vis q b = .ok (b', q') → Batch.Even b →
    ∃ js, appendJobs q = js ++ appendJobs q' ∧ b'.responders = b.responders ++ js.map (·.id) ∧ Batch.Even b' ∧ (NoShutdown q → NoShutdown q') := by
  intro vis
  induction vis with
  | zero => intro q b b' q' h he; cases h; exact ⟨[], rfl, by simp, he, id⟩
  | succ vis ih =>
    intro q b b' q' h he
    cases q with
    | nil => cases h; exact ⟨[], rfl, by simp, he, id⟩
    | cons m q =>
      simp only [drain] at h
      split at h
      · cases h; exact ⟨[], rfl, by simp, he, id⟩
      split at h
      · cases h; exact ⟨[], rfl, by simp, he, id⟩
      cases m with
      | shutdown => cases h; exact ⟨[], rfl, by simp, he, fun hn m hm => hn m (by simp [hm])⟩
      | append j =>
        simp only at h
        cases hj : stepJob B env b j with
        | error e => rw [hj] at h; cases h
        | ok b1 =>
          rw [hj] at h
          obtain ⟨h1, h2⟩ := stepJob_ids hj he
          obtain ⟨js, k1, k2, k3, k4⟩ := ih h h2
          exact ⟨j :: js, by simp [appendJobs, k1], by rw [k2, h1]; simp, k3, fun hn => k4 fun m hm => hn m (by simp [hm])⟩

theorem finishBatch_ids {i : ι} {d : δ} {b : Batch σ} (he : Batch.Even b) : (finishBatch B i d b).2.1.map (·.1) = b.responders := by
  unfold Batch.Even at he
  unfold finishBatch
  split
  · exact abortAnswers_fst _ _ _
  · split
    · exact List.map_fst_zip (by omega)
    · rw [List.map_map]; exact List.map_id' _

/-- Every `Ok` was sent after a commit of a batch succeeded, and every head announced is that of such a batch. -/
def Backed (B : Backend δ σ υ ι) (as : List Answer) (hs : List (Option Nat)) : Prop :=
  (∀ id p, (id, .ok p) ∈ as → ∃ (i : ι) (b : Batch σ) (d : δ), B.commit i b.w = (.ok (), d) ∧ b.abort = none ∧
    (id, .ok p) ∈ b.responders.zip b.results) ∧
  ∀ h ∈ hs, ∃ i w d, B.commit i w = (.ok (), d) ∧ h = headOfNext (B.nextPos w)

theorem abort_no_ok {rs : List Nat} {i : Nat} {e : Err} {x : Answer} (hx : x ∈ abortAnswers rs i e) {p : Nat} : x.2 ≠ .ok p := by
  obtain ⟨⟨t, k⟩, -, rfl⟩ := List.mem_map.mp hx
  dsimp only
  split <;> simp

theorem Backed.append {as as' : List Answer} {hs hs' : List (Option Nat)} (h : Backed B as hs) (h' : Backed B as' hs') :
    Backed B (as ++ as') (hs ++ hs') := by
  refine ⟨fun id p hm => ?_, fun x hm => ?_⟩
  · exact (List.mem_append.mp hm).elim (h.1 id p) (h'.1 id p)
  · exact (List.mem_append.mp hm).elim (h.2 x) (h'.2 x)

theorem finishBatch_backed (i : ι) (d : δ) (b : Batch σ) : Backed B (finishBatch B i d b).2.1 (finishBatch B i d b).2.2.toList := by
  unfold finishBatch
  split
  · exact ⟨fun id p hm => absurd rfl (abort_no_ok hm), by simp⟩
  next hab =>
  split
  · next d' hc =>
    exact ⟨fun id p hm => ⟨i, b, d', hc, hab, hm⟩, fun h hm => ⟨i, b.w, d', hc, by simpa using hm⟩⟩
  · refine ⟨fun id p hm => ?_, by simp⟩
    obtain ⟨t, -, ht⟩ := List.mem_map.mp hm
    cases ht

theorem writerThread_answers {env : Env} (max : Nat) (vis : Nat → Nat) (io : Nat → ι) : ∀ (k n : Nat) (q : List Msg) (r : Run δ), q.length ≤ k →
    r.panicked = false → ∃ js rest as hs, appendJobs q = js ++ rest ∧ (writerThread B env max vis io n q r).answers = r.answers ++ as ∧
      (writerThread B env max vis io n q r).heads = r.heads ++ hs ∧ as.map (·.1) = js.map (·.id) ∧ Backed B as hs ∧
      ((writerThread B env max vis io n q r).panicked = false → NoShutdown q → rest = []) := by
  have none : ∀ (q : List Msg) (r r' : Run δ), r'.answers = r.answers → r'.heads = r.heads → (r'.panicked = false → NoShutdown q → appendJobs q = []) →
      ∃ js rest as hs, appendJobs q = js ++ rest ∧ r'.answers = r.answers ++ as ∧ r'.heads = r.heads ++ hs ∧ as.map (·.1) = js.map (·.id) ∧
        Backed B as hs ∧ (r'.panicked = false → NoShutdown q → rest = []) := fun q r r' h1 h2 h3 =>
    ⟨[], appendJobs q, [], [], rfl, by simp [h1], by simp [h2], rfl, ⟨by simp, by simp⟩, h3⟩
  intro k
  induction k with
  | zero =>
    intro n q r hk hp
    have : q = [] := List.length_eq_zero_iff.mp (by omega)
    subst this
    rw [writerThread]
    exact none _ _ _ rfl rfl fun _ _ => rfl
  | succ k ih =>
    intro n q r hk hp
    match q with
    | [] => rw [writerThread]; exact none _ _ _ rfl rfl fun _ _ => rfl
    | .shutdown :: q => rw [writerThread]; exact none _ _ _ rfl rfl fun _ hn => absurd rfl (hn .shutdown (by simp))
    | .append j :: q =>
      simp only [List.length_cons] at hk
      rw [writerThread]
      split
      · next e he =>
        obtain ⟨js, rest, as, hs, h1, h2, h3, h4, h5, h6⟩ := ih (n + 1) q { r with answers := r.answers ++ [(j.id, .error e)] } (by omega) hp
        refine ⟨j :: js, rest, (j.id, .error e) :: as, hs, by simp [appendJobs, h1], by simp [h2], h3, by simp [h4], ⟨fun id p hm => ?_, h5.2⟩,
          fun hp hn => h6 hp fun m hm => hn m (by simp [hm])⟩
        rcases List.mem_cons.mp hm with hm | hm
        · cases hm
        · exact h5.1 id p hm
      · next w hw =>
        split
        · exact none _ _ _ rfl rfl fun h _ => by cases h
        · next b hb =>
          obtain ⟨i1, i2⟩ := stepJob_ids hb (b := Batch.new w) rfl
          split
          · exact none _ _ _ rfl rfl fun h _ => by cases h
          · next b' q' hd =>
            obtain ⟨js1, k1, k2, k3, k4⟩ := drain_ids hd i2
            have hlen := drain_length hd
            have hids := finishBatch_ids (B := B) (i := io n) (d := r.db) k3
            have hbk := finishBatch_backed (B := B) (io n) r.db b'
            generalize finishBatch B (io n) r.db b' = x at hids hbk ⊢
            obtain ⟨d', as1, h⟩ := x
            simp only at hids hbk ⊢
            obtain ⟨js, rest, as, hs, h1, h2, h3, h4, h5, h6⟩ := ih (n + 1) q'
              { r with db := d', answers := r.answers ++ as1, heads := r.heads ++ h.toList } (by omega) hp
            refine ⟨j :: js1 ++ js, rest, as1 ++ as, h.toList ++ hs, by simp [appendJobs, k1, h1], by simp [h2], by simp [h3], ?_, hbk.append h5,
              fun hp hn => h6 hp (k4 fun m hm => hn m (by simp [hm]))⟩
            rw [List.map_append, h4, hids, k2, i1]
            simp [Batch.new]

end Answers

/-! ## Answers of the pipelined writer -/

/-- The requests in flight. -/
def waiting (st : Pipe) : List Nat :=
  match st.fly with
  | none => []
  | some f => f.responders

/-- The requests answered or in flight. -/
def known (st : Pipe) : List Nat := st.answers.map (·.1) ++ waiting st

/-- Every `Ok` was sent after the disk had written and synced the pages and the header of a batch, and every head announced is
that of such a batch. -/
def Landed (c : Conf) (as : List Answer) (hs : List (Option Nat)) : Prop :=
  (∀ id p, (id, .ok p) ∈ as → ∃ (io : PipeIO) (f : Flight) (d d' : PDb), ioCommit c io f.x d = (.ok (), d') ∧
    (id, .ok p) ∈ f.responders.zip f.results) ∧
  ∀ h ∈ hs, ∃ (io : PipeIO) (x : Prepared) (d d' : PDb) (ord : Writer → List Nat) (hp : HPage) (w w' : Writer),
    ioCommit c io x d = (.ok (), d') ∧ prepareCommit c ord hp w = .ok (x, w') ∧ h = headOfNext w'.nextPos

/-- What holds of the writer thread whatever the file contains. -/
structure Steady (c : Conf) (st : Pipe) : Prop where
  even : ∀ f, st.fly = some f → f.results.length = f.responders.length
  sent : ∀ f, st.fly = some f → ∃ (ord : Writer → List Nat) (hp : HPage) (w w' : Writer), prepareCommit c ord hp w = .ok (f.x, w') ∧
    f.head = headOfNext w'.nextPos
  landed : Landed c st.answers st.heads

theorem failAll_ids (rs : List Nat) (e : Err) : (failAll rs e).map (·.1) = rs := by
  unfold failAll
  rw [List.map_map]
  exact List.map_id' _

theorem failAll_no_ok {rs : List Nat} {e : Err} {x : Answer} (hx : x ∈ failAll rs e) {p : Nat} : x.2 ≠ .ok p := by
  obtain ⟨t, -, rfl⟩ := List.mem_map.mp hx
  simp

theorem Landed.fail {c : Conf} {as as' : List Answer} {hs : List (Option Nat)} (h : Landed c as hs) (h' : ∀ x ∈ as', ∀ p, x.2 ≠ .ok p) :
    Landed c (as ++ as') hs :=
  ⟨fun id p hm => (List.mem_append.mp hm).elim (h.1 id p) fun hm => absurd rfl (h' _ hm p), h.2⟩

theorem Steady.rollback {c : Conf} {st : Pipe} (h : Steady c st) (o : Option Nat) :
    Steady c (st.rollback c o) ∧ known (st.rollback c o) = known st ∧ (st.rollback c o).fly = st.fly ∧
      (st.rollback c o).panicked = st.panicked := by
  unfold Pipe.rollback
  split <;> exact ⟨⟨h.1, h.2, h.3⟩, rfl, rfl, rfl⟩

theorem Steady.fail {c : Conf} {st : Pipe} (h : Steady c st) {as : List Answer} (ha : ∀ x ∈ as, ∀ p, x.2 ≠ .ok p) :
    Steady c { st with answers := st.answers ++ as } ∧ (known { st with answers := st.answers ++ as }).Perm (known st ++ as.map (·.1)) := by
  refine ⟨⟨h.1, h.2, h.3.fail ha⟩, ?_⟩
  show (List.map _ (st.answers ++ as) ++ waiting st).Perm _
  unfold known
  rw [List.map_append, List.append_assoc, List.append_assoc]
  exact List.Perm.append_left _ List.perm_append_comm

theorem Steady.acknowledge {c : Conf} {st : Pipe} (h : Steady c st) {f : Flight} (hf : st.fly = some f) (io : PipeIO) :
    Steady c (st.acknowledge c io f).2 ∧ known (st.acknowledge c io f).2 = known st ∧ (st.acknowledge c io f).2.fly = none ∧
      (st.acknowledge c io f).2.panicked = st.panicked := by
  have hl := h.even f hf
  obtain ⟨ord, hp, w, w', h1, h2⟩ := h.sent f hf
  unfold Pipe.acknowledge
  split
  · next d' hio =>
    refine ⟨⟨fun _ hf => (by cases hf), fun _ hf => (by cases hf), fun id p hm => ?_, fun x hm => ?_⟩, ?_, rfl, rfl⟩
    · rcases List.mem_append.mp hm with hm | hm
      · exact h.3.1 id p hm
      · exact ⟨io, f, _, _, hio, hm⟩
    · rcases List.mem_append.mp hm with hm | hm
      · exact h.3.2 x hm
      · rw [List.mem_singleton] at hm
        exact ⟨io, f.x, _, _, ord, hp, w, w', hio, h1, hm.trans h2⟩
    · unfold known waiting
      simp only [hf, List.map_append, List.append_nil]
      rw [List.map_fst_zip (by omega)]
  · next e d' hio =>
    refine ⟨⟨fun _ hf => (by cases hf), fun _ hf => (by cases hf), h.3.fail fun x hx p => failAll_no_ok hx⟩, ?_, rfl, rfl⟩
    unfold known waiting
    simp only [hf, List.map_append, List.append_nil, failAll_ids]

theorem Steady.dispatch {c : Conf} {st : Pipe} (h : Steady c st) (hf : st.fly = none) {b : Batch PW} (he : Batch.Even b) (io : PipeIO) :
    Steady c (st.dispatch c io b) ∧ (known (st.dispatch c io b)).Perm (known st ++ b.responders) ∧
      (st.dispatch c io b).panicked = st.panicked := by
  unfold Pipe.dispatch
  split
  · next i e hab =>
    obtain ⟨h1, h2⟩ := h.fail (as := abortAnswers b.responders i e) fun x hx p => abort_no_ok hx
    obtain ⟨k1, k2, -, k3⟩ := h1.rollback io.oldest
    rw [abortAnswers_fst] at h2
    exact ⟨k1, k2 ▸ h2, k3⟩
  · split
    · next e hp =>
      obtain ⟨h1, h2⟩ := h.fail (as := failAll b.responders e) fun x hx p => failAll_no_ok hx
      obtain ⟨k1, k2, -, k3⟩ := h1.rollback io.oldest
      rw [failAll_ids] at h2
      exact ⟨k1, k2 ▸ h2, k3⟩
    · next x wr hx =>
      refine ⟨⟨fun f hf' => ?_, fun f hf' => ?_, h.3⟩, ?_, rfl⟩
      · cases hf'; exact he
      · cases hf'; exact ⟨_, _, _, _, hx, rfl⟩
      · unfold known waiting
        simp [hf]

theorem Steady.finish {c : Conf} {st : Pipe} (h : Steady c st) {b : Batch PW} (he : Batch.Even b) (io : PipeIO) :
    Steady c (st.finish c io b) ∧ (known (st.finish c io b)).Perm (known st ++ b.responders) ∧
      (st.finish c io b).panicked = st.panicked := by
  unfold Pipe.finish
  split
  · next hf => exact h.dispatch hf he io
  · next f hf =>
    obtain ⟨h1, h2, h3, h4⟩ := h.acknowledge hf io
    split
    · next st1 ha =>
      rw [ha] at h1 h2 h3 h4
      obtain ⟨k1, k2, k3⟩ := h1.dispatch h3 he io
      exact ⟨k1, h2 ▸ k2, k3.trans h4⟩
    · next st1 ha =>
      rw [ha] at h1 h2 h3 h4
      obtain ⟨k1, k2, k3, k4⟩ := h1.rollback io.oldest
      obtain ⟨l1, l2⟩ := k1.fail (as := failAll b.responders (.internal "batch discarded: preceding commit failed"))
        fun x hx p => failAll_no_ok hx
      rw [failAll_ids, k2, h2] at l2
      exact ⟨l1, l2, k4.trans h4⟩

theorem Steady.turn {c : Conf} {env : Env} {max : Nat} {idle : Bool} {vis : Nat} {io : PipeIO} {q q' : List Msg} {st st' : Pipe} (h : Steady c st)
    (ht : st.turn c env max idle vis io q = .go q' st') : ∃ js, appendJobs q = js ++ appendJobs q' ∧ Steady c st' ∧
      (known st').Perm (known st ++ js.map (·.id)) ∧ st'.panicked = st.panicked ∧ (NoShutdown q → NoShutdown q') := by
  have take : ∀ {q : List Msg}, st.take c env max vis io q = .go q' st' → ∃ js, appendJobs q = js ++ appendJobs q' ∧ Steady c st' ∧
      (known st').Perm (known st ++ js.map (·.id)) ∧ st'.panicked = st.panicked ∧ (NoShutdown q → NoShutdown q') := by
    intro q ht
    unfold Pipe.take at ht
    split at ht
    · cases ht
    · cases ht
    next j q =>
    have hn : NoShutdown (.append j :: q) → NoShutdown q := fun hn m hm => hn m (by simp [hm])
    unfold Pipe.batch at ht
    split at ht
    · next e wr hw =>
      cases ht
      have h' : Steady c { st with wr := wr } := ⟨h.1, h.2, h.3⟩
      obtain ⟨h1, h2⟩ := h'.fail (as := [(j.id, .error e)]) (by simp)
      exact ⟨[j], rfl, h1, h2, rfl, hn⟩
    · split at ht
      · cases ht
      next b hb =>
      split at ht
      · cases ht
      next b' q2 hd =>
      cases ht
      obtain ⟨i1, i2⟩ := stepJob_ids hb (b := Batch.new _) rfl
      obtain ⟨js, k1, k2, k3, k4⟩ := drain_ids hd i2
      obtain ⟨l1, l2, l3⟩ := h.finish k3 io
      refine ⟨j :: js, by simp [appendJobs, k1], l1, ?_, l3, fun h => k4 (hn h)⟩
      rw [k2, i1] at l2
      simpa [Batch.new] using l2
  unfold Pipe.turn at ht
  split at ht
  · next f hf =>
    obtain ⟨h1, h2, h3, h4⟩ := h.acknowledge hf io
    unfold Pipe.wait at ht
    split at ht
    · next st1 ha =>
      rw [ha] at h1 h2 h3 h4
      cases ht
      exact ⟨[], rfl, h1, by simp [h2], h4, id⟩
    · next st1 ha =>
      rw [ha] at h1 h2 h3 h4
      obtain ⟨k1, k2, k3, k4⟩ := h1.rollback io.oldest
      cases ht
      exact ⟨[], rfl, k1, by rw [k2]; simp [h2], k4.trans h4, id⟩
  · exact take ht

theorem turn_stop {c : Conf} {env : Env} {max : Nat} {idle : Bool} {vis : Nat} {io : PipeIO} {q : List Msg} {st st' : Pipe}
    (ht : st.turn c env max idle vis io q = .stop st') : st' = { st with panicked := st'.panicked } ∧
      (st'.panicked = false → NoShutdown q → appendJobs q = []) := by
  have take : st.take c env max vis io q = .stop st' → st' = { st with panicked := st'.panicked } ∧
      (st'.panicked = false → NoShutdown q → appendJobs q = []) := by
    intro ht
    unfold Pipe.take at ht
    split at ht
    · cases ht; exact ⟨rfl, fun _ _ => rfl⟩
    · cases ht; exact ⟨rfl, fun _ hn => absurd rfl (hn .shutdown (by simp))⟩
    unfold Pipe.batch at ht
    split at ht
    · cases ht
    split at ht
    · cases ht; exact ⟨rfl, fun h => by cases h⟩
    split at ht
    · cases ht; exact ⟨rfl, fun h => by cases h⟩
    · cases ht
  unfold Pipe.turn at ht
  split at ht
  · unfold Pipe.wait at ht
    split at ht <;> cases ht
  · exact take ht

theorem Steady.reap {c : Conf} {st : Pipe} (h : Steady c st) (io : PipeIO) : Landed c (st.reap c io).answers (st.reap c io).heads ∧
    (st.reap c io).panicked = st.panicked ∧
    ∃ lost, (st.reap c io).answers.map (·.1) ++ lost = known st ∧ (st.panicked = false → lost = []) := by
  unfold Pipe.reap
  split
  · next hp => exact ⟨h.3, rfl, waiting st, rfl, fun h => by rw [hp] at h; cases h⟩
  · split
    · next hf => exact ⟨h.3, rfl, [], by unfold known waiting; rw [hf], fun _ => rfl⟩
    · next f hf =>
      obtain ⟨h1, h2, h3, h4⟩ := h.acknowledge hf io
      refine ⟨h1.3, h4, [], ?_, fun _ => rfl⟩
      rw [← h2]
      unfold known waiting
      rw [h3]

theorem pipeThread_answers {c : Conf} {env : Env} (max : Nat) (idle : Nat → Bool) (vis : Nat → Nat) (io : Nat → PipeIO) :
    ∀ (k n : Nat) (q : List Msg) (st : Pipe), st.left q ≤ k → Steady c st → st.panicked = false →
    ∃ js rest lost, appendJobs q = js ++ rest ∧ Landed c (pipeThread c env max idle vis io n q st).answers (pipeThread c env max idle vis io n q st).heads ∧
      ((pipeThread c env max idle vis io n q st).answers.map (·.1) ++ lost).Perm (known st ++ js.map (·.id)) ∧
      ((pipeThread c env max idle vis io n q st).panicked = false → lost = [] ∧ (NoShutdown q → rest = [])) := by
  intro k
  induction k with
  | zero =>
    intro n q st hk h hp
    have hq : q = [] := by
      unfold Pipe.left at hk
      exact List.length_eq_zero_iff.mp (by omega)
    subst hq
    have hf : st.fly = none := by
      unfold Pipe.left at hk
      cases hf : st.fly with
      | none => rfl
      | some f => rw [hf] at hk; simp at hk
    have ht : st.turn c env max (idle n) (vis n) (io n) [] = .stop st := by
      unfold Pipe.turn
      rw [hf]
      rfl
    have hr : pipeThread c env max idle vis io n [] st = st.reap c (io n) := by
      rw [pipeThread]
      split
      · next st1 h1 => rw [ht] at h1; cases h1; rfl
      · next h1 => rw [ht] at h1; cases h1
    obtain ⟨h1, h2, lost, h3, h4⟩ := h.reap (io n)
    rw [hr]
    exact ⟨[], [], lost, rfl, h1, by rw [h3]; simp, fun _ => ⟨h4 hp, fun _ => rfl⟩⟩
  | succ k ih =>
    intro n q st hk h hp
    rw [pipeThread]
    split
    · next st1 ht =>
      obtain ⟨e, h0⟩ := turn_stop ht
      have h' : Steady c st1 := by rw [e]; exact ⟨h.1, h.2, h.3⟩
      have hk : known st1 = known st := by rw [e]; rfl
      obtain ⟨h1, h2, lost, h3, h4⟩ := h'.reap (io n)
      refine ⟨[], appendJobs q, lost, rfl, h1, by rw [h3, hk]; simp, fun hp => ?_⟩
      rw [h2] at hp
      exact ⟨h4 hp, h0 hp⟩
    · next q' st' ht =>
      have := turn_left ht
      obtain ⟨js, h1, h2, h3, h4, h5⟩ := h.turn ht
      obtain ⟨js', rest, lost, k1, k2, k3, k4⟩ := ih (n + 1) q' st' (by omega) h2 (by rw [h4]; exact hp)
      refine ⟨js ++ js', rest, lost, by rw [h1, k1]; simp, k2, ?_, fun hp => ⟨(k4 hp).1, fun hn => (k4 hp).2 (h5 hn)⟩⟩
      refine k3.trans ((h3.append_right _).trans ?_)
      simp

theorem start_steady {c : Conf} {d : PDb} {st : Pipe} (h : Pipe.start c d = .ok st) : Steady c st ∧ known st = [] ∧ st.panicked = false := by
  unfold Pipe.start at h
  split at h
  · cases h
  · cases h
    exact ⟨⟨fun _ h => (by cases h), fun _ h => (by cases h), by simp, by simp⟩, rfl, rfl⟩

end Uma.Server
