import Verif.Server.Handler
import Verif.Props.Pipeline

/-!
# What a caller of the request handler gets, whatever the storage does: C55; `head` of the handler: C11, C32
-/

namespace Uma.Props
open Uma.Spec Uma.Db Uma.Page Uma.Mvcc Uma.Server

section Any
variable {δ σ υ ι : Type}

/-- C55 (blocking writer): for any storage, healthy or not (no law is assumed of `B`), the requests answered are a prefix of
those queued, each answered once and in order; if the thread did not panic and was not told to stop these are all; and `Ok` is
sent, and a head announced, only for a batch whose commit succeeded. -/
theorem C55_blocking (B : Backend δ σ υ ι) (env : Env) (max : Nat) (vis : Nat → Nat) (io : Nat → ι) (d : δ) (q : List Msg) :
    (serve B env max vis io d q).answers.map (·.1) <+: (appendJobs q).map (·.id) ∧
    ((serve B env max vis io d q).panicked = false → NoShutdown q →
      (serve B env max vis io d q).answers.map (·.1) = (appendJobs q).map (·.id)) ∧
    (∀ id p, (id, .ok p) ∈ (serve B env max vis io d q).answers → ∃ (i : ι) (b : Batch σ) (d' : δ), B.commit i b.w = (.ok (), d') ∧
      b.abort = none ∧ (id, .ok p) ∈ b.responders.zip b.results) ∧
    ∀ h ∈ (serve B env max vis io d q).heads, ∃ i w d', B.commit i w = (.ok (), d') ∧ h = headOfNext (B.nextPos w) := by
  obtain ⟨js, rest, as, hs, h1, h2, h3, h4, h5, h6⟩ := writerThread_answers (B := B) (env := env) max vis io q.length 0 q ⟨d, [], [], false⟩
    (Nat.le_refl _) rfl
  unfold serve
  rw [h2, h3]
  simp only [List.nil_append]
  refine ⟨?_, fun hp hn => ?_, h5.1, h5.2⟩
  · rw [h4, h1, List.map_append]; exact List.prefix_append _ _
  · rw [h4, h1, h6 hp hn]; simp

end Any

/-- C55 (pipelined writer): for any database, healthy or not, with the requests `js` taken from the queue: each is answered
once, except those in flight (`lost`) if the thread panics; `Ok` is sent, and a head announced, only for a batch that was written
and synced with its header. -/
theorem C55_pipelined (c : Conf) (env : Env) (max : Nat) (idle : Nat → Bool) (vis : Nat → Nat) (io : Nat → PipeIO) {d : PDb} {q : List Msg}
    {r : Pipe} (hr : pipeServe c env max idle vis io d q = .ok r) :
    (∃ js rest lost, appendJobs q = js ++ rest ∧ (r.answers.map (·.1) ++ lost).Perm (js.map (·.id)) ∧
      (r.panicked = false → lost = [] ∧ (NoShutdown q → rest = []))) ∧
    (∀ id p, (id, .ok p) ∈ r.answers → ∃ (io : PipeIO) (f : Flight) (d d' : PDb), ioCommit c io f.x d = (.ok (), d') ∧
      (id, .ok p) ∈ f.responders.zip f.results) ∧
    ∀ h ∈ r.heads, ∃ (io : PipeIO) (x : Prepared) (d d' : PDb) (ord : Writer → List Nat) (hp : HPage) (w w' : Writer),
      ioCommit c io x d = (.ok (), d') ∧ prepareCommit c ord hp w = .ok (x, w') ∧ h = headOfNext w'.nextPos := by
  unfold pipeServe at hr
  split at hr
  · cases hr
  next st hst =>
  cases hr
  obtain ⟨h1, h2, h3⟩ := start_steady hst
  obtain ⟨js, rest, lost, k1, k2, k3, k4⟩ := pipeThread_answers (env := env) max idle vis io _ 0 q st (Nat.le_refl _) h1 h3
  rw [h2] at k3
  exact ⟨⟨js, rest, lost, k1, k3, k4⟩, k2.1, k2.2⟩

/-- C55: what a call of `append` returns is the answer to its own request, or an I/O error if the request was not sent or not
answered. -/
theorem C55_reply {as : List Answer} (hn : (as.map (·.1)).Nodup) (sent : Bool) (id : Nat) :
    (∀ a, sent = true → (id, a) ∈ as → appendReply sent as id = a) ∧
    ((sent = false ∨ id ∉ as.map (·.1)) → ∃ m, appendReply sent as id = .error (.io m)) := by
  refine ⟨fun a hs hm => ?_, fun h => ?_⟩
  · subst hs
    have : as.lookup id = some a := by
      induction as with
      | nil => cases hm
      | cons x as ih =>
        obtain ⟨i, b⟩ := x
        rcases List.mem_cons.mp hm with hx | hx
        · cases hx; simp [List.lookup]
        · simp only [List.map_cons, List.nodup_cons] at hn
          have hne : id ≠ i := by
            rintro rfl
            exact hn.1 (List.mem_map.mpr ⟨(id, a), hx, rfl⟩)
          have := ih hn.2 hx
          simp only [List.lookup]
          rw [show (id == i) = false by simpa using hne]
          exact this
    unfold appendReply
    rw [this]
    rfl
  · unfold appendReply
    split
    · next hs =>
      rcases h with h | h
      · rw [hs] at h; cases h
      · have : as.lookup id = none := by
          rw [List.lookup_eq_none_iff]
          rintro ⟨i, b⟩ hx
          simp only [bne_iff_ne, ne_eq]
          rintro rfl
          exact h (List.mem_map.mpr ⟨(id, b), hx, rfl⟩)
        rw [this]
        exact ⟨_, rfl⟩
    · exact ⟨_, rfl⟩

section Healthy
variable {c : Conf} {kw : Nat}

/-- C11, C32: the server's `head` call, and the head announced when the server starts, are the head of the committed
database. -/
theorem C11_handler_head {env : Env} {hc : ConfOk c kw} {d : PDb} {s : Spec.Db} (hd : Live c hc env.H d s) :
    handlerHead d = .ok (Spec.head s.log) ∧ initialHead d = .ok (Spec.head s.log) := by
  obtain ⟨hp, h, PE, PT, PK, PF, ix, F, L, -⟩ := hd
  have hn : headOfNext h.nextPosition = Spec.head s.log := by rw [L.next]; exact headOfNext_eq _
  unfold handlerHead initialHead
  rw [L.latest, ← hn]
  simp [L.node, asHeader, Bind.bind, Except.bind, pure, Except.pure]

end Healthy

/-! ## Examples -/

/-- Storage on which no transaction can begin: a damaged page of the free list. -/
def exNoBegin : Backend MemDb MemTx Unit MemIo := { MB with begin := fun _ => .error (.pageNotFound 2) }

/-- Storage on which tags cannot be inserted. -/
def exNoTags : Backend MemDb MemTx Unit MemIo := { MB with tagInsert := fun _ _ w => (.error (.databaseCorrupted "x"), w) }

/-- Each of three requests is answered, on healthy storage, when no transaction can begin, and when the first, which has tags,
makes its batch fail. -/
example :
    let q : List Msg := [.append ⟨1, exReq, noCancel⟩, .append ⟨2, ⟨[{ exEv 3 with tags := [] }], none, none⟩, noCancel⟩,
      .append ⟨3, ⟨[{ exEv 4 with tags := [] }], none, none⟩, noCancel⟩]
    (serve MB exEnv 2048 (fun _ => 1) (fun _ => .good) MemDb.empty q).answers = [(1, .ok 2), (2, .ok 3), (3, .ok 4)] ∧
    (serve exNoBegin exEnv 2048 (fun _ => 1) (fun _ => .good) MemDb.empty q).answers =
      [(1, .error (.pageNotFound 2)), (2, .error (.pageNotFound 2)), (3, .error (.pageNotFound 2))] ∧
    (serve exNoTags exEnv 2048 (fun _ => 1) (fun _ => .good) MemDb.empty q).answers =
      [(1, .error (.databaseCorrupted "x")), (2, .ok 1), (3, .ok 2)] := by
  decide +kernel

/-- The writer is stopped by the first request (finding 1): neither call waits for ever. -/
example :
    let r := serve MB exEnv 2048 (fun _ => 0) (fun _ => .good) exDb
      [.append ⟨1, ⟨[], some ⟨⟨[]⟩, none⟩, none⟩, noCancel⟩, .append ⟨2, ⟨[exEv 2], none, none⟩, noCancel⟩]
    r.panicked = true ∧ appendReply true r.answers 1 = .error (.io "failed to receive append response from EventStore thread") ∧
      appendReply false r.answers 2 = .error (.io "failed to send append request to EventStore thread") := by
  decide +kernel

/-- The pipelined writer on a new database: it starts, and the head announced first is that of an empty one. -/
example : ∃ (d : PDb) (r : Pipe), pipeServe exConf exConstEnv 2048 (fun _ => false) (fun _ => 0) (fun _ => exPipeIO) d
    [.append ⟨1, exReq, noCancel⟩] = .ok r ∧ initialHead d = .ok none ∧ handlerHead d = .ok none := by
  obtain ⟨-, -, d, -, -, -, -, -, -, hd, -, ha, -⟩ := exInFlight
  have he : EnvOk exConstEnv := ⟨fun l => List.Perm.refl l⟩
  obtain ⟨r, _, _, h1, -⟩ := C31_answers rfl he exConf_ok exConstEnv_width hd 2048 (fun _ => false) (fun _ => 0) (fun _ => exPipeIO) _ ha
  obtain ⟨h2, h3⟩ := C11_handler_head (env := exConstEnv) hd
  exact ⟨d, r, h1, h3, h2⟩

end Uma.Props
