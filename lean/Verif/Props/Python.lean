import Verif.Net.Python
import Verif.Props.Net
import Mathlib.Data.List.Forall2

/-! # C61: the Python bindings -/

namespace Uma.Props
open Uma.Net
open Uma.Server (Response)

/-- An item of the stream as a Python program must see it. -/
def asPy : Except Err SeqEvent → Except PyExc SeqEvent
  | .ok ev => .ok ev
  | .error e => .error (pyErr e)

/-- What the call handed to the program. -/
def pyGot : PyOut → List (Except PyExc SeqEvent)
  | .item none => []
  | .item (some r) => [r]
  | .batch (.ok l) => l.map .ok
  | .batch (.error e) => [.error e]

/-- The call was left by an exception of a signal handler. -/
def Raised : PyOut → Prop
  | .item r => r = some (.error .raised)
  | .batch r => r = .error .raised

/-- The program was told that the stream is over. -/
def PyEnd : PyOut → Prop
  | .item none => True
  | .batch (.ok []) => True
  | _ => False

/-- The part of the stream a call consumed: what it handed over, except that a call left by a signal handler's exception may
have consumed something without handing it over; an iterator step at most one item. -/
def Consumed (o : PyOut) (part : List (Except PyExc SeqEvent)) : Prop :=
  (Raised o → ∀ r, o = .item r → part.length ≤ 1) ∧ (¬ Raised o → part = pyGot o)

theorem pyErr_ne (e : Err) : pyErr e ≠ .raised := by cases e <;> simp [pyErr]

theorem got_le (r : Option (Except Err SeqEvent)) : (got (.item r)).length ≤ 1 := by
  rcases r with _ | e | ev
  · simp [got]
  · cases e <;> simp [got]
  · simp [got]

theorem pyNext_spec : ∀ (ts : List PyTurn) {s : SyncResp} {rs : List Response} {fail : Option Status}, SInv s rs fail →
    ∃ rs' fail' part, SInv (pyNext ts s).2 rs' fail' ∧
      (sPending s rs fail).map asPy = part ++ (sPending (pyNext ts s).2 rs' fail').map asPy ∧
      ∀ x, (pyNext ts s).1 = some x → Consumed (.item x) part ∧ (x = none → sPending (pyNext ts s).2 rs' fail' = []) ∧
        (x = some (.error .raised) → ∃ t ∈ ts, t.raises = true) := by
  intro ts
  induction ts with
  | nil => intro s rs fail h; exact ⟨rs, fail, [], h, by simp [pyNext], by simp [pyNext]⟩
  | cons t ts ih =>
    intro s rs fail h
    obtain ⟨rs', fail', h1, h2, h3⟩ := syncNext_spec h t.fires
    rcases hn : syncNext t.fires s with ⟨r, s'⟩
    rw [hn] at h1 h2 h3
    simp only at h1 h2 h3
    have hmap : (sPending s rs fail).map asPy = (got (.item r)).map asPy ++ (sPending s' rs' fail').map asPy := by
      rw [h2, List.map_append]
    by_cases hr : t.raises = true
    · simp only [pyNext, hn, if_pos hr]
      refine ⟨rs', fail', (got (.item r)).map asPy, h1, hmap, ?_⟩
      intro x hx
      cases hx
      refine ⟨⟨fun _ _ _ => by rw [List.length_map]; exact got_le r, fun hc => absurd rfl hc⟩, by simp, fun _ => ⟨t, by simp, hr⟩⟩
    · rcases r with _ | e | ev
      · simp only [pyNext, hn, if_neg hr]
        refine ⟨rs', fail', [], h1, by simpa [got] using hmap, ?_⟩
        intro x hx
        cases hx
        exact ⟨⟨fun hc => (by cases hc), fun _ => rfl⟩, fun _ => h3 rfl, by simp⟩
      · by_cases he : e = .timeout
        · subst he
          simp only [pyNext, hn, if_neg hr]
          obtain ⟨rs2, fail2, part, k1, k2, k3⟩ := ih h1
          refine ⟨rs2, fail2, part, k1, ?_, ?_⟩
          · rw [hmap]; simpa [got] using k2
          · intro x hx
            obtain ⟨l1, l2, l3⟩ := k3 x hx
            refine ⟨l1, l2, fun hc => ?_⟩
            obtain ⟨t', ht', hr'⟩ := l3 hc
            exact ⟨t', by simp [ht'], hr'⟩
        · have hp : pyNext (t :: ts) s = (some (some (.error (pyErr e))), s') := by
            simp only [pyNext, hn, if_neg hr]
          have hg : got (.item (some (.error e))) = [.error e] := by cases e <;> first | rfl | exact absurd rfl he
          rw [hp]
          refine ⟨rs', fail', [.error (pyErr e)], h1, by rw [hmap, hg]; rfl, ?_⟩
          intro x hx
          cases hx
          refine ⟨⟨fun _ _ _ => by simp, fun _ => rfl⟩, by simp, fun hc => ?_⟩
          simp only [Option.some.injEq, Except.error.injEq] at hc
          exact absurd hc (pyErr_ne e)
      · simp only [pyNext, hn, if_neg hr]
        refine ⟨rs', fail', [.ok ev], h1, by rw [hmap]; rfl, ?_⟩
        intro x hx
        cases hx
        exact ⟨⟨fun _ _ _ => by simp, fun _ => rfl⟩, by simp, by simp⟩

theorem pyNextBatch_spec : ∀ (ts : List PyTurn) {s : SyncResp} {rs : List Response} {fail : Option Status}, SInv s rs fail →
    ∃ rs' fail' part, SInv (pyNextBatch ts s).2 rs' fail' ∧
      (sPending s rs fail).map asPy = part ++ (sPending (pyNextBatch ts s).2 rs' fail').map asPy ∧
      ∀ x, (pyNextBatch ts s).1 = some x → Consumed (.batch x) part ∧
        (x = .ok [] → sPending (pyNextBatch ts s).2 rs' fail' = []) ∧ (x = .error .raised → ∃ t ∈ ts, t.raises = true) := by
  intro ts
  induction ts with
  | nil => intro s rs fail h; exact ⟨rs, fail, [], h, by simp [pyNextBatch], by simp [pyNextBatch]⟩
  | cons t ts ih =>
    intro s rs fail h
    obtain ⟨rs', fail', h1, h2, h3⟩ := syncNextBatch_spec h t.fires
    rcases hn : syncNextBatch t.fires s with ⟨r, s'⟩
    rw [hn] at h1 h2 h3
    simp only at h1 h2 h3
    have hmap : (sPending s rs fail).map asPy = (got (.batch r)).map asPy ++ (sPending s' rs' fail').map asPy := by
      rw [h2, List.map_append]
    by_cases hr : t.raises = true
    · simp only [pyNextBatch, hn, if_pos hr]
      refine ⟨rs', fail', (got (.batch r)).map asPy, h1, hmap, ?_⟩
      intro x hx
      cases hx
      exact ⟨⟨fun _ _ hc => (by cases hc), fun hc => absurd rfl hc⟩, by simp, fun _ => ⟨t, by simp, hr⟩⟩
    · rcases r with e | l
      · by_cases he : e = .timeout
        · subst he
          simp only [pyNextBatch, hn, if_neg hr]
          obtain ⟨rs2, fail2, part, k1, k2, k3⟩ := ih h1
          refine ⟨rs2, fail2, part, k1, ?_, ?_⟩
          · rw [hmap]; simpa [got] using k2
          · intro x hx
            obtain ⟨l1, l2, l3⟩ := k3 x hx
            refine ⟨l1, l2, fun hc => ?_⟩
            obtain ⟨t', ht', hr'⟩ := l3 hc
            exact ⟨t', by simp [ht'], hr'⟩
        · have hp : pyNextBatch (t :: ts) s = (some (.error (pyErr e)), s') := by
            simp only [pyNextBatch, hn, if_neg hr]
          have hg : got (.batch (.error e)) = [.error e] := by cases e <;> first | rfl | exact absurd rfl he
          rw [hp]
          refine ⟨rs', fail', [.error (pyErr e)], h1, by rw [hmap, hg]; rfl, ?_⟩
          intro x hx
          cases hx
          refine ⟨⟨fun _ _ _ => by simp, fun _ => rfl⟩, by simp, fun hc => ?_⟩
          simp only [Except.error.injEq] at hc
          exact absurd hc (pyErr_ne e)
      · simp only [pyNextBatch, hn, if_neg hr]
        refine ⟨rs', fail', l.map .ok, h1, by rw [hmap]; simp [got, asPy], ?_⟩
        intro x hx
        cases hx
        exact ⟨⟨fun hc => (by cases hc), fun _ => rfl⟩, fun hl => h3 (by simpa using hl), by simp⟩

theorem syncNextBatch_no_timeout {s : SyncResp} {rs : List Response} {fail : Option Status} (h : SInv s rs fail) :
    (syncNextBatch false s).1 ≠ .error .timeout := by
  unfold syncNextBatch
  split
  · simp
  rcases hr : refill false s with ⟨r, s'⟩
  cases r with
  | none => simp
  | some e =>
    simp only [ne_eq, Except.error.injEq]
    rintro rfl
    unfold refill asyncNextBatch at hr
    by_cases hb : s.inner.buffer ≠ []
    · simp only [if_pos hb] at hr
      split at hr <;> simp at hr
    · simp only [if_neg hb] at hr
      rcases fetch_spec h.inner false with ⟨hf, _⟩ | ⟨_, hc, _⟩ | ⟨_, _, _, _, hf⟩ | ⟨_, _, _, s0, _, hf⟩ | ⟨_, _, _, _, _, hf⟩
      · rw [hf] at hr; simp only at hr; split at hr <;> cases hr
      · cases hc
      · rw [hf] at hr; simp only at hr; split at hr <;> cases hr
      · rw [hf] at hr; simp only [Prod.mk.injEq, Option.some.injEq] at hr
        exact errOfStatus_ne s0 hr.1
      · rw [hf] at hr; simp only at hr; split at hr <;> cases hr

theorem pyReadBatch_spec {s : SyncResp} {rs : List Response} {fail : Option Status} (h : SInv s rs fail) :
    ∃ rs' fail' part, SInv (pyReadBatch s).2 rs' fail' ∧
      (sPending s rs fail).map asPy = part ++ (sPending (pyReadBatch s).2 rs' fail').map asPy ∧
      Consumed (.batch (pyReadBatch s).1) part ∧ ((pyReadBatch s).1 = .ok [] → sPending (pyReadBatch s).2 rs' fail' = []) ∧
      (pyReadBatch s).1 ≠ .error .raised := by
  obtain ⟨rs', fail', h1, h2, h3⟩ := syncNextBatch_spec h false
  have hto := syncNextBatch_no_timeout h
  rcases hn : syncNextBatch false s with ⟨r, s'⟩
  rw [hn] at h1 h2 h3 hto
  simp only at h1 h2 h3 hto
  have hmap : (sPending s rs fail).map asPy = (got (.batch r)).map asPy ++ (sPending s' rs' fail').map asPy := by
    rw [h2, List.map_append]
  rcases r with e | l
  · have hp : pyReadBatch s = (.error (pyErr e), s') := by simp only [pyReadBatch, hn]
    have hg : got (.batch (.error e)) = [.error e] := by cases e <;> first | rfl | exact absurd rfl hto
    rw [hp]
    refine ⟨rs', fail', [.error (pyErr e)], h1, by rw [hmap, hg]; rfl, ⟨fun _ _ _ => by simp, fun _ => rfl⟩, by simp, fun hc => ?_⟩
    simp only [Except.error.injEq] at hc
    exact pyErr_ne e hc
  · have hp : pyReadBatch s = (.ok l, s') := by simp only [pyReadBatch, hn]
    rw [hp]
    exact ⟨rs', fail', l.map .ok, h1, by rw [hmap]; simp [got, asPy], ⟨fun hc => (by cases hc), fun _ => rfl⟩,
      fun hl => h3 (by simpa using hl), by simp⟩

/-- Rounds in which a signal handler raises. -/
def HasRaise : PyOp → Prop
  | .next ts | .nextBatch ts => ∃ t ∈ ts, t.raises = true
  | .readBatch => False

theorem pyOp_spec {s : SyncResp} {rs : List Response} {fail : Option Status} (h : SInv s rs fail) (op : PyOp) :
    ∃ rs' fail' part, SInv (pyOp s op).2 rs' fail' ∧
      (sPending s rs fail).map asPy = part ++ (sPending (pyOp s op).2 rs' fail').map asPy ∧
      ∀ o, (pyOp s op).1 = some o → Consumed o part ∧ (PyEnd o → sPending (pyOp s op).2 rs' fail' = []) ∧
        (Raised o → HasRaise op) := by
  cases op with
  | next ts =>
    obtain ⟨rs', fail', part, h1, h2, h3⟩ := pyNext_spec ts h
    refine ⟨rs', fail', part, h1, h2, ?_⟩
    intro o ho
    simp only [pyOp, Option.map_eq_some_iff] at ho
    obtain ⟨x, hx, rfl⟩ := ho
    obtain ⟨k1, k2, k3⟩ := h3 x hx
    refine ⟨k1, fun he => k2 ?_, k3⟩
    rcases x with _ | x
    · rfl
    · exact he.elim
  | nextBatch ts =>
    obtain ⟨rs', fail', part, h1, h2, h3⟩ := pyNextBatch_spec ts h
    refine ⟨rs', fail', part, h1, h2, ?_⟩
    intro o ho
    simp only [pyOp, Option.map_eq_some_iff] at ho
    obtain ⟨x, hx, rfl⟩ := ho
    obtain ⟨k1, k2, k3⟩ := h3 x hx
    refine ⟨k1, fun he => k2 ?_, k3⟩
    rcases x with e | _ | ⟨a, l⟩
    · exact he.elim
    · rfl
    · exact he.elim
  | readBatch =>
    obtain ⟨rs', fail', part, h1, h2, h3, h4, h5⟩ := pyReadBatch_spec h
    refine ⟨rs', fail', part, h1, h2, ?_⟩
    intro o ho
    simp only [pyOp] at ho
    cases ho
    refine ⟨h3, fun he => h4 ?_, fun hc => absurd hc h5⟩
    rcases hx : (pyReadBatch s).1 with e | _ | ⟨a, l⟩
    · rw [hx] at he; exact he.elim
    · rfl
    · rw [hx] at he; exact he.elim

theorem pyRun_spec : ∀ (ops : List PyOp) {s : SyncResp} {rs : List Response} {fail : Option Status}, SInv s rs fail →
    ∃ parts rest, List.Forall₂ Consumed (pyRun s ops).1 parts ∧ (sPending s rs fail).map asPy = parts.flatten ++ rest ∧
      ((∃ o ∈ (pyRun s ops).1, PyEnd o) → rest = []) ∧
      ((∀ op ∈ ops, ¬ HasRaise op) → ∀ o ∈ (pyRun s ops).1, ¬ Raised o) := by
  intro ops
  induction ops with
  | nil =>
    intro s rs fail h
    exact ⟨[], (sPending s rs fail).map asPy, by simp [pyRun], by simp, by simp [pyRun], by simp [pyRun]⟩
  | cons op ops ih =>
    intro s rs fail h
    obtain ⟨rs', fail', part, h1, h2, h3⟩ := pyOp_spec h op
    rcases ho : pyOp s op with ⟨o, s'⟩
    rw [ho] at h1 h2 h3
    cases o with
    | none =>
      refine ⟨[], (sPending s rs fail).map asPy, by simp [pyRun, ho], by simp, by simp [pyRun, ho], by simp [pyRun, ho]⟩
    | some o =>
      obtain ⟨k1, k2, k3⟩ := h3 o rfl
      obtain ⟨parts, rest, l1, l2, l3, l4⟩ := ih h1
      refine ⟨part :: parts, rest, ?_, ?_, ?_, ?_⟩
      · simp only [pyRun, ho]; exact List.Forall₂.cons k1 l1
      · rw [h2, l2, List.flatten_cons, List.append_assoc]
      · rintro ⟨x, hx, he⟩
        simp only [pyRun, ho, List.mem_cons] at hx
        rcases hx with rfl | hx
        · have := k2 he
          simp only at this
          rw [this] at l2
          simp only [List.map_nil] at l2
          exact (List.append_eq_nil_iff.mp l2.symm).2
        · exact l3 ⟨x, hx, he⟩
      · intro hn x hx
        simp only [pyRun, ho, List.mem_cons] at hx
        rcases hx with rfl | hx
        · exact fun hc => hn op (by simp) (k3 hc)
        · exact l4 (fun op hop => hn op (by simp [hop])) x hx

/-- C61 as far as it holds: whatever a Python program calls on a read response or a subscription, and however often the 100 ms
pass, the calls consume the server's messages in order; each item of the stream - an event, or the failure as a Python
exception - is handed over exactly once, by the call that consumed it, unless that call was left by the exception of a signal
handler (then an iterator step loses at most one item).  Elapsed timeouts are never seen; the end is told only at the end. -/
theorem C61_iteration_partial (rs : List Response) (fail : Option Status) (hs : Shape fail rs) (ops : List PyOp) :
    ∃ parts rest, List.Forall₂ Consumed (pyRun (SyncResp.new (wire rs fail)) ops).1 parts ∧
      (wanted rs fail).map asPy = parts.flatten ++ rest ∧
      ((∃ o ∈ (pyRun (SyncResp.new (wire rs fail)) ops).1, PyEnd o) → rest = []) := by
  obtain ⟨parts, rest, h1, h2, h3, _⟩ := pyRun_spec ops (sInv_new rs fail hs)
  exact ⟨parts, rest, h1, by simpa [sPending, aPending, SyncResp.new, AsyncResp.new] using h2, h3⟩

/-- C61 without raising signal handlers: nothing is lost. -/
theorem C61_iteration_quiet (rs : List Response) (fail : Option Status) (hs : Shape fail rs) (ops : List PyOp)
    (hq : ∀ op ∈ ops, ¬ HasRaise op) :
    ∃ rest, (wanted rs fail).map asPy = (pyRun (SyncResp.new (wire rs fail)) ops).1.flatMap pyGot ++ rest ∧
      ((∃ o ∈ (pyRun (SyncResp.new (wire rs fail)) ops).1, PyEnd o) → rest = []) := by
  obtain ⟨parts, rest, h1, h2, h3, h4⟩ := pyRun_spec ops (sInv_new rs fail hs)
  have h5 := h4 hq
  have : ∀ (outs : List PyOut) (parts : List (List (Except PyExc SeqEvent))), List.Forall₂ Consumed outs parts →
      (∀ o ∈ outs, ¬ Raised o) → parts.flatten = outs.flatMap pyGot := by
    intro outs parts hf
    induction hf with
    | nil => intro _; rfl
    | cons hc _ ih =>
      intro hn
      rw [List.flatten_cons, List.flatMap_cons, ih (fun o ho => hn o (by simp [ho])), hc.2 (hn _ (by simp))]
  refine ⟨rest, ?_, h3⟩
  rw [← this _ _ h1 h5]
  simpa [sPending, aPending, SyncResp.new, AsyncResp.new] using h2

/-- The call has a round in which the stream may take as long as it likes, or it waits without rounds. -/
def Patient : PyOp → Prop
  | .next ts | .nextBatch ts => ∃ t ∈ ts, t.fires = false
  | .readBatch => True

theorem pyNext_returns : ∀ (ts : List PyTurn) {s : SyncResp} {rs : List Response} {fail : Option Status}, SInv s rs fail →
    (∃ t ∈ ts, t.fires = false) → (pyNext ts s).1 ≠ none := by
  intro ts
  induction ts with
  | nil => rintro s rs fail h ⟨t, ht, _⟩; cases ht
  | cons t ts ih =>
    rintro s rs fail h hp
    obtain ⟨rs', fail', h1, _⟩ := syncNext_spec h t.fires
    have hto := syncNext_no_timeout h
    unfold pyNext
    rcases hn : syncNext t.fires s with ⟨r, s'⟩
    rw [hn] at h1
    simp only
    split
    · simp
    · split
      · simp
      · refine ih h1 ?_
        obtain ⟨t', ht', hf⟩ := hp
        rcases List.mem_cons.mp ht' with rfl | ht'
        · rw [hf] at hn; rw [hn] at hto; exact absurd rfl hto
        · exact ⟨t', ht', hf⟩
      · simp
      · simp

theorem pyNextBatch_returns : ∀ (ts : List PyTurn) {s : SyncResp} {rs : List Response} {fail : Option Status}, SInv s rs fail →
    (∃ t ∈ ts, t.fires = false) → (pyNextBatch ts s).1 ≠ none := by
  intro ts
  induction ts with
  | nil => rintro s rs fail h ⟨t, ht, _⟩; cases ht
  | cons t ts ih =>
    rintro s rs fail h hp
    obtain ⟨rs', fail', h1, _⟩ := syncNextBatch_spec h t.fires
    have hto := syncNextBatch_no_timeout h
    unfold pyNextBatch
    rcases hn : syncNextBatch t.fires s with ⟨r, s'⟩
    rw [hn] at h1
    simp only
    split
    · simp
    · split
      · simp
      · refine ih h1 ?_
        obtain ⟨t', ht', hf⟩ := hp
        rcases List.mem_cons.mp ht' with rfl | ht'
        · rw [hf] at hn; rw [hn] at hto; exact absurd rfl hto
        · exact ⟨t', ht', hf⟩
      · simp

theorem pyRun_returns : ∀ (ops : List PyOp) {s : SyncResp} {rs : List Response} {fail : Option Status}, SInv s rs fail →
    (∀ op ∈ ops, Patient op) → (pyRun s ops).1.length = ops.length := by
  intro ops
  induction ops with
  | nil => intros; rfl
  | cons op ops ih =>
    intro s rs fail h hp
    obtain ⟨rs', fail', _, h1, _⟩ := pyOp_spec h op
    have hr : (pyOp s op).1 ≠ none := by
      have hop := hp op (by simp)
      cases op with
      | next ts => simp only [pyOp, ne_eq, Option.map_eq_none_iff]; exact pyNext_returns ts h hop
      | nextBatch ts => simp only [pyOp, ne_eq, Option.map_eq_none_iff]; exact pyNextBatch_returns ts h hop
      | readBatch => simp [pyOp]
    rcases ho : pyOp s op with ⟨_ | o, s'⟩
    · rw [ho] at hr; exact absurd rfl hr
    · rw [ho] at h1
      simp only [pyRun, ho, List.length_cons]
      rw [ih h1 (fun op hop => hp op (by simp [hop]))]

/-- C61: every call returns as soon as the stream answers within one of its rounds. -/
theorem C61_returns (rs : List Response) (fail : Option Status) (hs : Shape fail rs) (ops : List PyOp)
    (hp : ∀ op ∈ ops, Patient op) : (pyRun (SyncResp.new (wire rs fail)) ops).1.length = ops.length :=
  pyRun_returns ops (sInv_new rs fail hs) hp

theorem pyNext_quiet (ts : List PyTurn) {s : SyncResp} {rs : List Response} {fail : Option Status} (h : SInv s rs fail)
    (hp : ∃ t ∈ ts, t.fires = false) (hq : ∀ t ∈ ts, t.raises = false) :
    ∃ rs' fail' x, SInv (pyNext ts s).2 rs' fail' ∧ (pyNext ts s).1 = some x ∧
      (sPending s rs fail).map asPy = x.toList ++ (sPending (pyNext ts s).2 rs' fail').map asPy ∧
      (x = none → sPending (pyNext ts s).2 rs' fail' = []) := by
  obtain ⟨rs', fail', part, h1, h2, h3⟩ := pyNext_spec ts h
  have hr := pyNext_returns ts h hp
  cases hx : (pyNext ts s).1 with
  | none => exact absurd hx hr
  | some x =>
    obtain ⟨k1, k2, k3⟩ := h3 x hx
    have hn : ¬ Raised (.item x) := by
      intro hc
      obtain ⟨t, ht, hr'⟩ := k3 hc
      rw [hq t ht] at hr'
      cases hr'
    refine ⟨rs', fail', x, h1, rfl, ?_, k2⟩
    rw [h2, k1.2 hn]
    cases x <;> rfl

/-- C61, `for event in response`: a program that iterates to the end gets the events of all messages, then the failure or the
end, whatever timeouts elapse on the way. -/
theorem C61_for_loop (rs : List Response) (fail : Option Status) (hs : Shape fail rs) (rounds : List (List PyTurn))
    (hr : ∀ ts ∈ rounds, (∃ t ∈ ts, t.fires = false) ∧ ∀ t ∈ ts, t.raises = false)
    (hl : rounds.length = (wanted rs fail).length + 1) :
    (pyRun (SyncResp.new (wire rs fail)) (rounds.map .next)).1 =
      (wanted rs fail).map (fun x => .item (some (asPy x))) ++ [.item none] := by
  have key : ∀ (rounds : List (List PyTurn)) (p : List (Except PyExc SeqEvent)) (s : SyncResp) (rs : List Response)
      (fail : Option Status), SInv s rs fail → p = (sPending s rs fail).map asPy →
      (∀ ts ∈ rounds, (∃ t ∈ ts, t.fires = false) ∧ ∀ t ∈ ts, t.raises = false) → rounds.length = p.length + 1 →
      (pyRun s (rounds.map .next)).1 = p.map (fun x => .item (some x)) ++ [.item none] := by
    intro rounds
    induction rounds with
    | nil => intro p s rs fail _ _ _ hl; simp at hl
    | cons ts rounds ih =>
      intro p s rs fail h hp hr hl
      obtain ⟨rs', fail', x, h1, h2, h3, h4⟩ := pyNext_quiet ts h (hr ts (by simp)).1 (hr ts (by simp)).2
      rcases hn : pyNext ts s with ⟨y, s'⟩
      rw [hn] at h1 h2 h3 h4
      simp only at h1 h2 h3 h4
      subst h2
      rw [h3] at hp
      cases x with
      | none =>
        rw [h4 rfl] at hp
        subst hp
        simp only [Option.toList_none, List.map_nil, List.append_nil, List.length_nil, List.length_cons, Nat.zero_add,
          Nat.add_eq_right, List.length_eq_zero_iff] at hl
        subst hl
        simp [pyRun, pyOp, hn]
      | some x =>
        simp only [Option.toList_some, List.cons_append, List.nil_append] at hp
        subst hp
        simp only [List.length_cons, Nat.add_right_cancel_iff] at hl
        have := ih _ s' rs' fail' h1 rfl (fun ts hts => hr ts (by simp [hts])) hl
        simp only [List.map_cons, pyRun, pyOp, hn, Option.map_some, this, List.cons_append]
  have := key rounds ((wanted rs fail).map asPy) _ rs fail (sInv_new rs fail hs)
    (by simp [sPending, aPending, SyncResp.new, AsyncResp.new]) hr (by simpa using hl)
  rw [this, List.map_map]
  rfl

/-- C61 is false when a signal handler raises: a program that catches the exception and goes on with the iteration misses an
event. -/
theorem C61_iteration_false : ¬ ∀ (rs : List Response) (fail : Option Status), Shape fail rs → ∀ ops : List PyOp,
    (∃ o ∈ (pyRun (SyncResp.new (wire rs fail)) ops).1, PyEnd o) →
    ∀ ev ∈ rs.flatMap (·.events), ∃ o ∈ (pyRun (SyncResp.new (wire rs fail)) ops).1, .ok ev ∈ pyGot o := by
  intro h
  have he : (pyRun (SyncResp.new (wire [⟨[⟨1, default, none⟩, ⟨2, default, none⟩], some 2⟩] none))
      [.next [{ raises := true }], .next [{}], .next [{}]]).1 =
      [.item (some (.error .raised)), .item (some (.ok ⟨2, default, none⟩)), .item none] := by decide +kernel
  have := h [⟨[⟨1, default, none⟩, ⟨2, default, none⟩], some 2⟩] none (by simp [Shape])
    [.next [{ raises := true }], .next [{}], .next [{}]]
    (by rw [he]; exact ⟨.item none, by simp, trivial⟩) ⟨1, default, none⟩ (by simp)
  rw [he] at this
  simp [pyGot] at this

/-! ## Exceptions -/

/-- The class of an exception. -/
inductive PyClass
  | value | integrity | transport | corruption | authentication | cancelled | plain | raised
deriving DecidableEq

def classOf : PyExc → PyClass
  | .value _ => .value
  | .integrity _ => .integrity
  | .transport _ => .transport
  | .corruption _ => .corruption
  | .authentication _ => .authentication
  | .cancelled => .cancelled
  | .plain _ => .plain
  | .raised => .raised

def messageOf : PyExc → String
  | .value m | .integrity m | .transport m | .corruption m | .authentication m | .plain m => m
  | _ => ""

/-- C61, C37: an error of the store reaches a Python program in the exception class of its category: refused conditions as
`IntegrityError`, invalid arguments as `ValueError`, unreadable data as `CorruptionError`, refused credentials as
`AuthenticationError`, with the text of the store's error as message; the rest as plain `Exception` with the category named once
more in front. -/
theorem C61_exceptions (e : Err) :
    classOf (pyErr (errOfStatus (statusOfErr e))) = (match category e with
      | .integrity => .integrity
      | .invalidArgument => .value
      | .corruption => .corruption
      | .authentication => .authentication
      | _ => .plain) ∧
    messageOf (pyErr (errOfStatus (statusOfErr e))) = (match category e with
      | .serialization => "serialization error: "
      | .internal => "internal error: "
      | .io => "io error: "
      | _ => "") ++ display e := by
  cases e <;> exact ⟨rfl, rfl⟩

/-- Two classes tell errors of the store apart exactly as far as their categories. -/
example : pyErr (errOfStatus (statusOfErr (.integrity "x"))) = .integrity "integrity error: condition failed: x" ∧
    pyErr (errOfStatus (statusOfErr (.internal "x"))) = .plain "internal error: internal error: x" := by decide +kernel

/-! ## Metadata -/

/-- C61: the metadata of an event made in Python, a map, come back as that map, in whatever order its entries are stored. -/
theorem C61_metadata (d : String → Option String) (l : List (String × String)) (hn : (l.map (·.1)).Nodup)
    (hl : ∀ k v, d k = some v ↔ (k, v) ∈ l) (k : String) : pyMetadata l k = d k := by
  have key : ∀ (l : List (String × String)) (acc : Option String), (l.map (·.1)).Nodup →
      (∀ v, (k, v) ∈ l → l.foldl (fun acc p => if p.1 = k then some p.2 else acc) acc = some v) ∧
      (k ∉ l.map (·.1) → l.foldl (fun acc p => if p.1 = k then some p.2 else acc) acc = acc) := by
    intro l
    induction l with
    | nil => intro acc _; exact ⟨by simp, fun _ => rfl⟩
    | cons p l ih =>
      intro acc hn
      simp only [List.map_cons, List.nodup_cons] at hn
      simp only [List.foldl_cons, List.mem_cons, List.map_cons]
      constructor
      · rintro v (hv | hv)
        · subst hv
          rw [if_pos rfl]
          exact (ih (some v) hn.2).2 hn.1
        · exact (ih _ hn.2).1 v hv
      · intro hk
        rw [if_neg (fun hc => hk (Or.inl hc.symm))]
        exact (ih acc hn.2).2 (fun hc => hk (Or.inr hc))
  cases hd : d k with
  | some v => exact (key l none hn).1 v ((hl k v).mp hd)
  | none =>
    refine (key l none hn).2 ?_
    intro hc
    obtain ⟨⟨k', v⟩, hm, rfl⟩ := List.mem_map.mp hc
    rw [(hl k' v).mpr hm] at hd
    cases hd

/-- C61: of an event stored by another client with two entries for a key, Python shows the last. -/
theorem C61_metadata_last (l : List (String × String)) (k v : String) : pyMetadata (l ++ [(k, v)]) k = some v := by
  simp [pyMetadata]

/-- Iteration with an elapsed timeout, a failure, the end. -/
example : (pyRun (SyncResp.new (wire [⟨[⟨1, default, none⟩], none⟩] (some (statusOfErr (.corruption "x")))))
      [.next [{ fires := true }, {}], .next [{}], .next [{}]]).1 =
    [.item (some (.ok ⟨1, default, none⟩)), .item (some (.error (.corruption "corruption detected: x"))), .item none] := by
  decide +kernel

example : (pyRun (SyncResp.new (wire [⟨[⟨1, default, none⟩, ⟨2, default, none⟩], none⟩] none))
      [.nextBatch [{ fires := true }, { raises := true }], .readBatch]).1 =
    [.batch (.error .raised), .batch (.ok [])] := by decide +kernel

example : pyMetadata [("a", "1"), ("b", "2"), ("a", "3")] "a" = some "3" ∧ pyMetadata [("a", "1"), ("b", "2")] "b" = some "2" ∧
    pyMetadata [("a", "1")] "c" = none := by decide +kernel

end Uma.Props
