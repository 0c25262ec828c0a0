import Verif.Net.ClientProof

/-! Invariants of the synchronous response object, and of heads. -/

namespace Uma.Net
open Uma.Server (Response)

structure SInv (s : SyncResp) (rs : List Response) (fail : Option Status) : Prop where
  inner : AInv s.inner rs fail
  shape : Shape fail rs
  fin : s.finished = true → s.buffer = [] ∧ s.inner.buffer = [] ∧ rs = [] ∧ fail = none
  head : s.buffer ≠ [] → s.inner.lastHead ≠ none ∧ s.inner.ended = false

def sPending (s : SyncResp) (rs : List Response) (fail : Option Status) : List (Except Err SeqEvent) :=
  s.buffer.map .ok ++ aPending s.inner rs fail

theorem sInv_new (rs : List Response) (fail : Option Status) (h : Shape fail rs) :
    SInv (SyncResp.new (wire rs fail)) rs fail :=
  ⟨aInv_new rs fail, h, by simp [SyncResp.new], by simp [SyncResp.new]⟩

theorem refill_spec {s : SyncResp} {rs : List Response} {fail : Option Status} (h : SInv s rs fail)
    (hb : s.buffer = []) (fires : Bool) {r : Option Err} {s' : SyncResp} (hr : refill fires s = (r, s')) :
    ∃ rs' fail', SInv s' rs' fail' ∧
      (∀ e, r = some e → s'.buffer = [] ∧ sPending s rs fail = got (.batch (.error e)) ++ sPending s' rs' fail') ∧
      (r = none → sPending s rs fail = sPending s' rs' fail' ∧ (s'.buffer = [] → s'.finished = true)) := by
  unfold refill at hr
  rcases hn : asyncNextBatch fires s.inner with ⟨res, i⟩
  rw [hn] at hr
  obtain ⟨rs', fail', h1, h2, h3, h4, h5, h6⟩ := asyncNextBatch_spec h.inner fires hn
  obtain ⟨h7, h8⟩ := h5 h.shape
  cases res with
  | error e =>
    simp only at hr
    cases hr
    refine ⟨rs', fail', ⟨h1, h7, ?_, fun hc => absurd hb hc⟩, ?_, by simp⟩
    · intro hf
      obtain ⟨f1, f2, f3, f4⟩ := h.fin hf
      obtain ⟨i1, i2⟩ := h6 f3 f4
      exact ⟨f1, h3, i1, i2⟩
    · intro e' he; cases he
      exact ⟨hb, by simpa [sPending, hb] using h2⟩
  | ok batch =>
    simp only at hr
    by_cases hbe : batch = []
    · rw [if_pos hbe] at hr
      cases hr
      obtain ⟨i1, i2⟩ := h8 (by rw [hbe])
      refine ⟨rs', fail', ⟨h1, h7, fun _ => ⟨hb, h3, i1, i2⟩, fun hc => absurd hb hc⟩, by simp, fun _ => ⟨?_, fun _ => rfl⟩⟩
      simpa [sPending, hb, hbe, got] using h2
    · rw [if_neg hbe] at hr
      cases hr
      have hnf : s.finished = false := by
        cases hf : s.finished with
        | false => rfl
        | true =>
          obtain ⟨f1, f2, f3, f4⟩ := h.fin hf
          subst f3 f4
          simp [aPending, f2, wanted, got] at h2
          exact absurd h2.1 hbe
      refine ⟨rs', fail', ⟨h1, h7, fun hc => ?_, fun _ => h4 batch rfl hbe⟩, by simp, fun _ => ⟨?_, fun hc => absurd hc hbe⟩⟩
      · simp only [hnf] at hc; cases hc
      · simpa [sPending, hb, got] using h2

theorem popFront_spec {s : SyncResp} {rs : List Response} {fail : Option Status} (h : SInv s rs fail)
    (hf : s.buffer = [] → s.finished = true) :
    SInv (popFront s).2 rs fail ∧ sPending s rs fail = got (.item (popFront s).1) ++ sPending (popFront s).2 rs fail ∧
      ((popFront s).1 = none → sPending (popFront s).2 rs fail = []) := by
  unfold popFront
  cases hb : s.buffer with
  | nil =>
    simp only
    obtain ⟨f1, f2, rfl, rfl⟩ := h.fin (hf hb)
    exact ⟨h, by simp [got], fun _ => by simp [sPending, aPending, f1, f2, wanted]⟩
  | cons ev buf =>
    simp only
    refine ⟨⟨h.inner, h.shape, fun hc => ?_, fun _ => h.head (by simp [hb])⟩, by simp [sPending, hb, got], fun hc => nomatch hc⟩
    have := (h.fin hc).1
    rw [hb] at this; cases this

theorem got_error_same (e : Err) : got (.item (some (.error e))) = got (.batch (.error e)) := by
  cases e <;> rfl

theorem syncNext_spec {s : SyncResp} {rs : List Response} {fail : Option Status} (h : SInv s rs fail) (fires : Bool) :
    ∃ rs' fail', SInv (syncNext fires s).2 rs' fail' ∧
      sPending s rs fail = got (.item (syncNext fires s).1) ++ sPending (syncNext fires s).2 rs' fail' ∧
      ((syncNext fires s).1 = none → sPending (syncNext fires s).2 rs' fail' = []) := by
  unfold syncNext
  by_cases h1 : s.finished = false ∧ s.inner.ended = true
  · rw [if_pos h1]
    obtain ⟨i1, rfl, rfl⟩ := h.inner.done h1.2
    have hb : s.buffer = [] := Classical.byContradiction fun hc => by
      have := (h.head hc).2; rw [h1.2] at this; cases this
    refine ⟨[], none, ⟨h.inner, trivial, fun _ => ⟨rfl, i1, rfl, rfl⟩, by simp⟩, ?_, fun _ => ?_⟩
    · simp [sPending, hb, got]
    · simp [sPending, aPending, i1, wanted]
  rw [if_neg h1]
  by_cases h2 : s.buffer ≠ [] ∨ s.finished = true
  · rw [if_pos h2]
    exact ⟨rs, fail, popFront_spec h fun hb => by rcases h2 with h2 | h2; exact absurd hb h2; exact h2⟩
  rw [if_neg h2]
  have hb : s.buffer = [] := Classical.byContradiction fun hc => h2 (Or.inl hc)
  rcases hr : refill fires s with ⟨r, s'⟩
  obtain ⟨rs', fail', i1, i2, i3⟩ := refill_spec h hb fires hr
  cases r with
  | some e =>
    simp only
    exact ⟨rs', fail', i1, by rw [got_error_same]; exact (i2 e rfl).2, fun hc => nomatch hc⟩
  | none =>
    simp only
    obtain ⟨j1, j2⟩ := i3 rfl
    obtain ⟨k1, k2, k3⟩ := popFront_spec i1 j2
    exact ⟨rs', fail', k1, by rw [j1]; exact k2, k3⟩

theorem syncNextBatch_spec {s : SyncResp} {rs : List Response} {fail : Option Status} (h : SInv s rs fail) (fires : Bool) :
    ∃ rs' fail', SInv (syncNextBatch fires s).2 rs' fail' ∧
      sPending s rs fail = got (.batch (syncNextBatch fires s).1) ++ sPending (syncNextBatch fires s).2 rs' fail' ∧
      ((syncNextBatch fires s).1 = .ok [] → sPending (syncNextBatch fires s).2 rs' fail' = []) := by
  unfold syncNextBatch
  by_cases hb : s.buffer ≠ []
  · rw [if_pos hb]
    refine ⟨rs, fail, ⟨h.inner, h.shape, fun hc => absurd (h.fin hc).1 hb, by simp⟩, by simp [sPending, got], fun hc => ?_⟩
    exact absurd (by simpa using hc) hb
  rw [if_neg hb]
  have hb : s.buffer = [] := by simpa using hb
  rcases hr : refill fires s with ⟨r, s'⟩
  obtain ⟨rs', fail', i1, i2, i3⟩ := refill_spec h hb fires hr
  cases r with
  | some e =>
    simp only
    exact ⟨rs', fail', i1, (i2 e rfl).2, fun hc => nomatch hc⟩
  | none =>
    simp only
    obtain ⟨j1, j2⟩ := i3 rfl
    refine ⟨rs', fail', ⟨i1.inner, i1.shape, fun hc => ?_, by simp⟩, ?_, fun hc => ?_⟩
    · obtain ⟨_, k⟩ := i1.fin hc; exact ⟨rfl, k⟩
    · rw [j1]; simp [sPending, got]
    · have hb' : s'.buffer = [] := by simpa using hc
      obtain ⟨_, k2, rfl, rfl⟩ := i1.fin (j2 hb')
      simp [sPending, aPending, k2, wanted]

theorem syncHead_spec {s : SyncResp} {rs : List Response} {fail : Option Status} (h : SInv s rs fail) :
    ∃ rs' fail', SInv (syncHead s).2 rs' fail' ∧
      sPending s rs fail = got (.head (syncHead s).1) ++ sPending (syncHead s).2 rs' fail' := by
  obtain ⟨rs', fail', h1, h2, h3, h4, h5⟩ := asyncHead_spec h.inner (Prod.eta (asyncHead s.inner)).symm
  unfold syncHead
  simp only
  by_cases hl : s.inner.lastHead = none
  · have hb : s.buffer = [] := Classical.byContradiction fun hc => (h.head hc).1 hl
    refine ⟨rs', fail', ⟨h1, h3 h.shape, fun hf => ?_, fun hc => absurd hb hc⟩, by simpa [sPending, hb] using h2⟩
    obtain ⟨f1, f2, f3, f4⟩ := h.fin hf
    exact ⟨f1, h5 f2 f3 f4⟩
  · obtain ⟨k1, k2, k3⟩ := h4 hl
    refine ⟨rs', fail', ⟨h1, h3 h.shape, fun hf => ?_, fun hc => ?_⟩, ?_⟩
    · obtain ⟨f1, f2, f3, f4⟩ := h.fin hf
      exact ⟨f1, h5 f2 f3 f4⟩
    · simp only [k1]; exact h.head hc
    · have hg : got (.head (asyncHead s.inner).1) = [] := by
        rw [k1, k2, k3] at h2
        have := congrArg List.length h2
        simp only [List.length_append] at this
        exact List.eq_nil_of_length_eq_zero (by omega)
      rw [hg, List.nil_append]
      simp only [sPending, k1, k2, k3]

/-- One call on a sync response. -/
theorem syncOp_spec {s : SyncResp} {rs : List Response} {fail : Option Status} (h : SInv s rs fail) (op : Op) :
    ∃ rs' fail', SInv (syncOp s op).2 rs' fail' ∧
      sPending s rs fail = got (syncOp s op).1 ++ sPending (syncOp s op).2 rs' fail' ∧
      (SaysEnd (syncOp s op).1 → sPending (syncOp s op).2 rs' fail' = []) := by
  cases op with
  | next =>
    obtain ⟨rs', fail', h1, h2, h3⟩ := syncNext_spec h false
    refine ⟨rs', fail', h1, h2, fun hc => h3 ?_⟩
    cases hn : (syncNext false s).1 with
    | none => rfl
    | some x => simp [syncOp, hn, SaysEnd] at hc
  | nextTimeout f =>
    obtain ⟨rs', fail', h1, h2, h3⟩ := syncNext_spec h f
    refine ⟨rs', fail', h1, h2, fun hc => h3 ?_⟩
    cases hn : (syncNext f s).1 with
    | none => rfl
    | some x => simp [syncOp, hn, SaysEnd] at hc
  | nextBatch =>
    obtain ⟨rs', fail', h1, h2, h3⟩ := syncNextBatch_spec h false
    refine ⟨rs', fail', h1, h2, fun hc => h3 ?_⟩
    rcases hn : (syncNextBatch false s).1 with x | _ | ⟨a, l⟩
    · simp [syncOp, hn, SaysEnd] at hc
    · rfl
    · simp [syncOp, hn, SaysEnd] at hc
  | nextBatchTimeout f =>
    obtain ⟨rs', fail', h1, h2, h3⟩ := syncNextBatch_spec h f
    refine ⟨rs', fail', h1, h2, fun hc => h3 ?_⟩
    rcases hn : (syncNextBatch f s).1 with x | _ | ⟨a, l⟩
    · simp [syncOp, hn, SaysEnd] at hc
    · rfl
    · simp [syncOp, hn, SaysEnd] at hc
  | head =>
    obtain ⟨rs', fail', h1, h2⟩ := syncHead_spec h
    exact ⟨rs', fail', h1, h2, fun hc => by simp [syncOp, SaysEnd] at hc⟩

end Uma.Net

namespace Uma.Net
open Uma.Server (Response)

theorem syncNext_no_timeout {s : SyncResp} {rs : List Response} {fail : Option Status} (h : SInv s rs fail) :
    (syncNext false s).1 ≠ some (.error .timeout) := by
  have hpop : ∀ s : SyncResp, (popFront s).1 ≠ some (.error .timeout) := by
    intro s; unfold popFront; split <;> simp
  unfold syncNext
  split
  · simp
  split
  · exact hpop s
  rcases hr : refill false s with ⟨r, s'⟩
  cases r with
  | none => exact hpop s'
  | some e =>
    simp only [ne_eq, Option.some.injEq, Except.error.injEq]
    rintro rfl
    unfold refill asyncNextBatch at hr
    by_cases hb : s.inner.buffer ≠ []
    · simp only [if_pos hb] at hr
      split at hr <;> simp at hr
    · simp only [if_neg hb] at hr
      rcases fetch_spec h.inner false with ⟨hf, _⟩ | ⟨_, hc, _⟩ | ⟨_, _, _, _, hf⟩ | ⟨_, _, _, s0, _, hf⟩ | ⟨_, _, _, _, _, hf⟩
      · rw [hf] at hr; simp only at hr; split at hr <;> cases hr
      · cases hc
      · rw [hf] at hr; simp only at hr; split at hr <;> cases hr
      · rw [hf] at hr; simp only [Prod.mk.injEq, Option.some.injEq] at hr
        exact errOfStatus_ne s0 hr.1
      · rw [hf] at hr; simp only at hr; split at hr <;> cases hr

/-- Every message still to come carries head `h` and can be converted, and the head is known or a message is next. -/
structure HInv (a : AsyncResp) (h : Option Nat) : Prop where
  all : ∀ r, .ok r ∈ a.stream → r.head = h ∧ ∃ l, convertSequenced r.events = .ok l
  unknown : a.lastHead = none → (∃ r rest, a.stream = .ok r :: rest) ∧ a.buffer = [] ∧ a.ended = false
  known : ∀ x, a.lastHead = some x → x = h

theorem hInv_buffer {a : AsyncResp} {h : Option Nat} (hi : HInv a h) (b : List SeqEvent) (hb : a.lastHead = none → b = []) :
    HInv { a with buffer := b } h :=
  ⟨hi.all, fun hl => ⟨(hi.unknown hl).1, hb hl, (hi.unknown hl).2.2⟩, hi.known⟩

theorem hInv_fetch {a : AsyncResp} {h : Option Nat} (hi : HInv a h) (fires : Bool) :
    HInv (fetch fires a).2 h ∧ (fires = false → a.lastHead = none →
      (fetch fires a).1 = .ok () ∧ (fetch fires a).2.lastHead = some h) := by
  unfold fetch
  by_cases h1 : a.buffer ≠ [] ∨ a.ended = true
  · rw [if_pos h1]
    refine ⟨hi, fun _ hl => ?_⟩
    obtain ⟨_, h2, h3⟩ := hi.unknown hl
    rcases h1 with h1 | h1
    · exact absurd h2 h1
    · rw [h3] at h1; cases h1
  rw [if_neg h1]
  cases fires with
  | true => exact ⟨hi, fun hc => nomatch hc⟩
  | false =>
    simp only [Bool.false_eq_true, if_false]
    cases hs : a.stream with
    | nil =>
      have hne : a.lastHead ≠ none := by
        intro hl; obtain ⟨⟨r, rest, hc⟩, _⟩ := hi.unknown hl; rw [hs] at hc; cases hc
      exact ⟨⟨by simp, fun hl => absurd hl hne, hi.known⟩, fun _ hl => absurd hl hne⟩
    | cons m rest =>
      cases m with
      | error e =>
        have hne : a.lastHead ≠ none := by
          intro hl; obtain ⟨⟨r, rest, hc⟩, _⟩ := hi.unknown hl; rw [hs] at hc; cases hc
        exact ⟨⟨by simp, fun hl => absurd hl hne, hi.known⟩, fun _ hl => absurd hl hne⟩
      | ok r =>
        obtain ⟨h3, l, h4⟩ := hi.all r (by rw [hs]; simp)
        simp only [h4]
        exact ⟨⟨fun r' hr => hi.all r' (by rw [hs]; simp [hr]), by simp, by simp [h3]⟩, fun _ _ => ⟨trivial, by simp [h3]⟩⟩

theorem hInv_head {a : AsyncResp} {h : Option Nat} (hi : HInv a h) :
    HInv (asyncHead a).2 h ∧ (asyncHead a).1 = .ok h := by
  unfold asyncHead
  cases hl : a.lastHead with
  | some x => exact ⟨hi, by rw [hi.known x hl]⟩
  | none =>
    obtain ⟨h1, h2⟩ := hInv_fetch hi false
    obtain ⟨h3, h4⟩ := h2 rfl hl
    rcases hf : fetch false a with ⟨r, a'⟩
    rw [hf] at h1 h3 h4
    simp only at h1 h3 h4
    subst h3
    exact ⟨h1, by simp [h4]⟩

theorem hInv_batch {a : AsyncResp} {h : Option Nat} (hi : HInv a h) (fires : Bool) :
    HInv (asyncNextBatch fires a).2 h := by
  unfold asyncNextBatch
  split
  · exact hInv_buffer hi [] fun _ => rfl
  · have h1 := (hInv_fetch hi fires).1
    rcases hf : fetch fires a with ⟨r, a'⟩
    rw [hf] at h1
    cases r with
    | error e => exact h1
    | ok u => exact hInv_buffer h1 [] fun _ => rfl

theorem hInv_poll {h : Option Nat} (s : Incoming)
    (hall : ∀ r, .ok r ∈ s → r.head = h ∧ ∃ l, convertSequenced r.events = .ok l) :
    ∀ lh, (lh = none → ∃ r rest, s = .ok r :: rest) → (∀ x, lh = some x → x = h) → HInv (pollStream lh s).2 h := by
  induction s with
  | nil =>
    intro lh hl hk
    have hne : lh ≠ none := by intro hc; obtain ⟨_, _, hc⟩ := hl hc; cases hc
    exact ⟨by simp [pollStream], fun hc => absurd hc hne, hk⟩
  | cons m s ih =>
    intro lh hl hk
    cases m with
    | error e =>
      have hne : lh ≠ none := by intro hc; obtain ⟨_, _, hc⟩ := hl hc; cases hc
      exact ⟨by simp [pollStream], fun hc => absurd hc hne, hk⟩
    | ok r =>
      obtain ⟨h3, l, h4⟩ := hall r (by simp)
      have hall' : ∀ r, .ok r ∈ s → r.head = h ∧ ∃ l, convertSequenced r.events = .ok l :=
        fun r hr => hall r (by simp [hr])
      cases l with
      | nil =>
        simp only [pollStream, h4]
        exact ih hall' _ (by simp) (by simp [h3])
      | cons ev buf =>
        simp only [pollStream, h4]
        exact ⟨hall', by simp, by simp [h3]⟩

theorem hInv_next {a : AsyncResp} {h : Option Nat} (hi : HInv a h) : HInv (asyncNext a).2 h := by
  unfold asyncNext
  split
  · exact hInv_buffer hi [] fun _ => rfl
  · cases hb : a.buffer with
    | cons ev buf =>
      exact hInv_buffer hi _ fun hl => by rw [(hi.unknown hl).2.1] at hb; cases hb
    | nil => exact hInv_poll _ hi.all _ (fun hl => (hi.unknown hl).1) hi.known

theorem hInv_asyncOp {a : AsyncResp} {h : Option Nat} (hi : HInv a h) (op : Op) :
    HInv (asyncOp a op).2 h ∧ ∀ r, (asyncOp a op).1 = .head r → r = .ok h := by
  cases op with
  | next => exact ⟨hInv_next hi, fun r hc => by simp [asyncOp] at hc⟩
  | nextTimeout f => exact ⟨hInv_next hi, fun r hc => by simp [asyncOp] at hc⟩
  | nextBatch => exact ⟨hInv_batch hi _, fun r hc => by simp [asyncOp] at hc⟩
  | nextBatchTimeout f => exact ⟨hInv_batch hi _, fun r hc => by simp [asyncOp] at hc⟩
  | head =>
    refine ⟨(hInv_head hi).1, fun r hc => ?_⟩
    simp only [asyncOp, Out.head.injEq] at hc
    rw [← hc]; exact (hInv_head hi).2

theorem hInv_refill {s : SyncResp} {h : Option Nat} (hi : HInv s.inner h) (fires : Bool) :
    HInv (refill fires s).2.inner h := by
  have h1 := hInv_batch hi fires
  unfold refill
  rcases hn : asyncNextBatch fires s.inner with ⟨r, i⟩
  rw [hn] at h1
  cases r with
  | error e => exact h1
  | ok l => simp only; split <;> exact h1

theorem popFront_inner (s : SyncResp) : (popFront s).2.inner = s.inner := by unfold popFront; split <;> rfl

theorem hInv_syncNext {s : SyncResp} {h : Option Nat} (hi : HInv s.inner h) (fires : Bool) :
    HInv (syncNext fires s).2.inner h := by
  have h1 := hInv_refill hi fires
  unfold syncNext
  split
  · exact hi
  split
  · rw [popFront_inner]; exact hi
  rcases hr : refill fires s with ⟨r, s'⟩
  rw [hr] at h1
  cases r with
  | some e => exact h1
  | none => simp only [popFront_inner]; exact h1

theorem hInv_syncBatch {s : SyncResp} {h : Option Nat} (hi : HInv s.inner h) (fires : Bool) :
    HInv (syncNextBatch fires s).2.inner h := by
  have h1 := hInv_refill hi fires
  unfold syncNextBatch
  split
  · exact hi
  rcases hr : refill fires s with ⟨r, s'⟩
  rw [hr] at h1
  cases r <;> exact h1

theorem hInv_syncOp {s : SyncResp} {h : Option Nat} (hi : HInv s.inner h) (op : Op) :
    HInv (syncOp s op).2.inner h ∧ ∀ r, (syncOp s op).1 = .head r → r = .ok h := by
  cases op with
  | next => exact ⟨hInv_syncNext hi _, fun r hc => by simp [syncOp] at hc⟩
  | nextTimeout f => exact ⟨hInv_syncNext hi _, fun r hc => by simp [syncOp] at hc⟩
  | nextBatch => exact ⟨hInv_syncBatch hi _, fun r hc => by simp [syncOp] at hc⟩
  | nextBatchTimeout f => exact ⟨hInv_syncBatch hi _, fun r hc => by simp [syncOp] at hc⟩
  | head =>
    refine ⟨(hInv_head hi).1, fun r hc => ?_⟩
    simp only [syncOp, syncHead, Out.head.injEq] at hc
    rw [← hc]; exact (hInv_head hi).2

theorem hInv_new {rs : List Response} (fail : Option Status) {h : Option Nat} (hr : ∀ r ∈ rs, r.head = h) (hne : rs ≠ []) :
    HInv (AsyncResp.new (wire rs fail)) h := by
  refine ⟨?_, fun _ => ?_, by simp [AsyncResp.new]⟩
  · intro r hm
    simp only [AsyncResp.new, wire, List.mem_append, List.mem_map] at hm
    rcases hm with ⟨r0, h0, h1⟩ | hm
    · cases h1; exact ⟨hr r0 h0, r0.events, convert_roundtrip _⟩
    · cases fail <;> simp at hm
  · cases rs with
    | nil => exact absurd rfl hne
    | cons r rs => exact ⟨⟨_, _, rfl⟩, rfl, rfl⟩

theorem runOps_head {σ : Type} {step : σ → Op → Out × σ} {h : Option Nat} (Inv : σ → Prop)
    (hstep : ∀ s op, Inv s → Inv (step s op).2 ∧ ∀ r, (step s op).1 = .head r → r = .ok h) (ops : List Op) :
    ∀ s, Inv s → ∀ r, .head r ∈ (runOps step s ops).1 → r = .ok h := by
  induction ops with
  | nil => intro s _ r hr; simp [runOps] at hr
  | cons op ops ih =>
    intro s hs r hr
    simp only [runOps, List.mem_cons] at hr
    rcases hr with hr | hr
    · exact (hstep s op hs).2 r hr.symm
    · exact ih _ (hstep s op hs).1 r hr

end Uma.Net
