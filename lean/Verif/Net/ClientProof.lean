import Verif.Net.ProtoProof
import Verif.Net.Client

/-! Invariants of the client's response objects. -/

namespace Uma.Net
open Uma.Server (Response)

/-- What the transport delivers for server messages `rs`, possibly cut off by a failure. -/
def wire (rs : List Response) (fail : Option Status) : Incoming :=
  rs.map (fun r => .ok ⟨r.events.map seqToP, r.head⟩) ++ (fail.map Except.error).toList

/-- What the program must get out of it, in this order. -/
def wanted (rs : List Response) (fail : Option Status) : List (Except Err SeqEvent) :=
  (rs.flatMap (·.events)).map .ok ++ (fail.map fun s => .error (errOfStatus s)).toList

/-- What one answer hands to the program (an elapsed timeout is no part of the stream). -/
def got : Out → List (Except Err SeqEvent)
  | .item none => []
  | .item (some (.error .timeout)) => []
  | .item (some r) => [r]
  | .batch (.ok l) => l.map .ok
  | .batch (.error .timeout) => []
  | .batch (.error e) => [.error e]
  | .head (.ok _) => []
  | .head (.error e) => [.error e]

/-- An empty message is followed by nothing. -/
def Shape (fail : Option Status) : List Response → Prop
  | [] => True
  | r :: rs => (r.events = [] → rs = [] ∧ fail = none) ∧ Shape fail rs

/-- The program was told that the stream is over. -/
def SaysEnd : Out → Prop
  | .item none => True
  | .batch (.ok []) => True
  | _ => False

structure AInv (a : AsyncResp) (rs : List Response) (fail : Option Status) : Prop where
  stream : a.stream = wire rs fail
  done : a.ended = true → a.buffer = [] ∧ rs = [] ∧ fail = none
  head : a.buffer ≠ [] → a.lastHead ≠ none

def aPending (a : AsyncResp) (rs : List Response) (fail : Option Status) : List (Except Err SeqEvent) :=
  a.buffer.map .ok ++ wanted rs fail

theorem wire_nil (fail : Option Status) : wire [] fail = (fail.map Except.error).toList := rfl

theorem wire_cons (r : Response) (rs : List Response) (fail : Option Status) :
    wire (r :: rs) fail = .ok ⟨r.events.map seqToP, r.head⟩ :: wire rs fail := rfl

theorem wanted_cons (r : Response) (rs : List Response) (fail : Option Status) :
    wanted (r :: rs) fail = r.events.map .ok ++ wanted rs fail := by simp [wanted]

theorem aInv_new (rs : List Response) (fail : Option Status) : AInv (AsyncResp.new (wire rs fail)) rs fail :=
  ⟨rfl, by simp [AsyncResp.new], by simp [AsyncResp.new]⟩

theorem errOfStatus_ne (s : Status) : errOfStatus s ≠ .timeout := by
  unfold errOfStatus
  repeat' split
  all_goals simp

theorem got_err (s : Status) : got (.item (some (.error (errOfStatus s)))) = [.error (errOfStatus s)] ∧
    got (.batch (.error (errOfStatus s))) = [.error (errOfStatus s)] := by
  have := errOfStatus_ne s
  constructor
  · unfold got; split <;> simp_all
  · unfold got; split <;> simp_all

/-- Outcome of a fetch. -/
theorem fetch_spec {a : AsyncResp} {rs : List Response} {fail : Option Status} (h : AInv a rs fail) (fires : Bool) :
    (fetch fires a = (.ok (), a) ∧ (a.buffer ≠ [] ∨ a.ended = true)) ∨
    (fetch fires a = (.error .timeout, a) ∧ fires = true ∧ a.buffer = [] ∧ a.ended = false) ∨
    (a.buffer = [] ∧ a.ended = false ∧ rs = [] ∧ fail = none ∧ fetch fires a = (.ok (), { a with ended := true })) ∨
    (a.buffer = [] ∧ a.ended = false ∧ rs = [] ∧ ∃ s, fail = some s ∧
      fetch fires a = (.error (errOfStatus s), { a with stream := [] })) ∨
    (a.buffer = [] ∧ a.ended = false ∧ ∃ r rs', rs = r :: rs' ∧
      fetch fires a = (.ok (), { a with stream := wire rs' fail, lastHead := some r.head, buffer := r.events })) := by
  unfold fetch
  by_cases h1 : a.buffer ≠ [] ∨ a.ended = true
  · exact Or.inl ⟨if_pos h1, h1⟩
  rw [if_neg h1]
  have hb : a.buffer = [] := Classical.byContradiction fun hc => h1 (Or.inl hc)
  have he : a.ended = false := by cases hc : a.ended with | false => rfl | true => exact absurd (Or.inr hc) h1
  cases fires with
  | true => right; left; simp [hb, he]
  | false =>
    right; right
    simp only [Bool.false_eq_true, if_false]
    rw [h.stream]
    cases rs with
    | nil =>
      cases fail with
      | none => left; exact ⟨hb, he, rfl, rfl, rfl⟩
      | some s => right; left; exact ⟨hb, he, rfl, s, rfl, rfl⟩
    | cons r rs =>
      right; right
      refine ⟨hb, he, r, rs, rfl, ?_⟩
      rw [wire_cons]
      simp only [convert_roundtrip]

theorem asyncNextBatch_spec {a : AsyncResp} {rs : List Response} {fail : Option Status} (h : AInv a rs fail)
    (fires : Bool) {r : Except Err (List SeqEvent)} {a' : AsyncResp} (ha : asyncNextBatch fires a = (r, a')) :
    ∃ rs' fail', AInv a' rs' fail' ∧ aPending a rs fail = got (.batch r) ++ aPending a' rs' fail' ∧
      a'.buffer = [] ∧ (∀ l, r = .ok l → l ≠ [] → a'.lastHead ≠ none ∧ a'.ended = false) ∧
      (Shape fail rs → Shape fail' rs' ∧ (r = .ok [] → rs' = [] ∧ fail' = none)) ∧
      (rs = [] → fail = none → rs' = [] ∧ fail' = none) := by
  unfold asyncNextBatch at ha
  by_cases hb : a.buffer ≠ []
  · rw [if_pos hb] at ha
    cases ha
    refine ⟨rs, fail, ⟨h.stream, fun he => absurd (h.done he).1 hb, by simp⟩, by simp [aPending, got], rfl, ?_, ?_, ?_⟩
    · intro l _ _
      exact ⟨h.head hb, by cases hc : a.ended with | false => rfl | true => exact absurd (h.done hc).1 hb⟩
    · intro hs; exact ⟨hs, fun hc => absurd (by simpa using hc) hb⟩
    · exact fun h1 h2 => ⟨h1, h2⟩
  rw [if_neg hb] at ha
  have hb : a.buffer = [] := by simpa using hb
  rcases fetch_spec h fires with ⟨hf, h1⟩ | ⟨hf, _, _, hne⟩ | ⟨_, he, rfl, rfl, hf⟩ | ⟨_, he, rfl, s, rfl, hf⟩ |
    ⟨_, he, r0, rs', rfl, hf⟩
  · rw [hf] at ha; cases ha
    have he : a.ended = true := by rcases h1 with h1 | h1; exact absurd hb h1; exact h1
    obtain ⟨_, h2, h3⟩ := h.done he
    subst h2 h3
    refine ⟨[], none, ⟨h.stream, fun _ => ⟨rfl, rfl, rfl⟩, by simp⟩, by simp [aPending, got, hb], rfl, ?_, ?_, ?_⟩
    · intro l hl hne; cases hl; exact absurd hb hne
    · intro hs; exact ⟨hs, fun _ => ⟨rfl, rfl⟩⟩
    · exact fun h1 h2 => ⟨h1, h2⟩
  · rw [hf] at ha; cases ha
    refine ⟨rs, fail, h, by simp [got], hb, ?_, ?_, ?_⟩
    · intro l hl; cases hl
    · intro hs; exact ⟨hs, fun hc => nomatch hc⟩
    · exact fun h1 h2 => ⟨h1, h2⟩
  · rw [hf] at ha; cases ha
    refine ⟨[], none, ⟨h.stream, fun _ => ⟨rfl, rfl, rfl⟩, by simp⟩, by simp [aPending, got, hb], rfl, ?_, ?_, ?_⟩
    · intro l hl hne; cases hl; exact absurd hb hne
    · intro hs; exact ⟨hs, fun _ => ⟨rfl, rfl⟩⟩
    · exact fun h1 h2 => ⟨h1, h2⟩
  · rw [hf] at ha; cases ha
    refine ⟨[], none, ⟨rfl, fun hc => (by rw [he] at hc; cases hc), fun hc => absurd hb hc⟩, ?_, hb, ?_, ?_, ?_⟩
    · rw [(got_err s).2]; simp [aPending, hb, wanted]
    · intro l hl; cases hl
    · intro _; exact ⟨trivial, fun hc => nomatch hc⟩
    · exact fun _ h2 => by cases h2
  · rw [hf] at ha; cases ha
    refine ⟨rs', fail, ⟨rfl, fun hc => ?_, by simp⟩, ?_, rfl, ?_, ?_, ?_⟩
    · rw [he] at hc; cases hc
    · simp [aPending, hb, wanted_cons, got]
    · intro l _ _; exact ⟨by simp, he⟩
    · intro hs; exact ⟨hs.2, fun hc => hs.1 (by simpa using hc)⟩
    · exact fun h1 _ => by cases h1

theorem pollStream_spec (rs : List Response) (fail : Option Status) (lh : Option (Option Nat))
    {r : Option (Except Err SeqEvent)} {a' : AsyncResp} (hp : pollStream lh (wire rs fail) = (r, a')) :
    ∃ rs' fail', AInv a' rs' fail' ∧ wanted rs fail = got (.item r) ++ aPending a' rs' fail' ∧
      (r = none → a'.buffer = [] ∧ rs' = [] ∧ fail' = none) ∧ (Shape fail rs → Shape fail' rs') ∧
      r ≠ some (.error .timeout) := by
  induction rs generalizing lh with
  | nil =>
    cases fail with
    | none =>
      simp only [wire_nil, Option.map_none, Option.toList_none, pollStream] at hp
      cases hp
      exact ⟨[], none, ⟨rfl, fun _ => ⟨rfl, rfl, rfl⟩, by simp⟩, by simp [got, wanted, aPending], fun _ => ⟨rfl, rfl, rfl⟩, id, by simp⟩
    | some s =>
      simp only [wire_nil, Option.map_some, Option.toList_some, pollStream] at hp
      cases hp
      exact ⟨[], none, ⟨rfl, fun _ => ⟨rfl, rfl, rfl⟩, by simp⟩, by rw [(got_err s).1]; simp [wanted, aPending],
        fun hc => (nomatch hc), fun _ => trivial, by simpa using errOfStatus_ne s⟩
  | cons r0 rs ih =>
    rw [wire_cons, pollStream] at hp
    simp only [convert_roundtrip] at hp
    cases he : r0.events with
    | nil =>
      rw [he] at hp
      simp only at hp
      obtain ⟨rs', fail', h1, h2, h3, h4, h5⟩ := ih _ hp
      exact ⟨rs', fail', h1, by rw [wanted_cons, he]; simpa using h2, h3, fun hs => h4 hs.2, h5⟩
    | cons ev buf =>
      rw [he] at hp
      simp only at hp
      cases hp
      exact ⟨rs, fail, ⟨rfl, by simp, by simp⟩, by simp [wanted_cons, he, got, aPending], fun hc => (nomatch hc),
        fun hs => hs.2, by simp⟩

theorem asyncHead_spec {a : AsyncResp} {rs : List Response} {fail : Option Status} (h : AInv a rs fail)
    {r : Except Err (Option Nat)} {a' : AsyncResp} (ha : asyncHead a = (r, a')) :
    ∃ rs' fail', AInv a' rs' fail' ∧ aPending a rs fail = got (.head r) ++ aPending a' rs' fail' ∧
      (Shape fail rs → Shape fail' rs') ∧ (a.lastHead ≠ none → a' = a ∧ rs' = rs ∧ fail' = fail) ∧
      (a.buffer = [] → rs = [] → fail = none → a'.buffer = [] ∧ rs' = [] ∧ fail' = none) := by
  unfold asyncHead at ha
  cases hl : a.lastHead with
  | some x =>
    rw [hl] at ha
    cases ha
    exact ⟨rs, fail, h, by simp [got], id, fun _ => ⟨rfl, rfl, rfl⟩, fun h1 h2 h3 => ⟨h1, h2, h3⟩⟩
  | none =>
    rw [hl] at ha
    simp only at ha
    have hbuf : a.buffer = [] := Classical.byContradiction fun hc => h.head hc hl
    rcases fetch_spec h false with ⟨hf, h1⟩ | ⟨_, hc, _⟩ | ⟨_, he, rfl, rfl, hf⟩ | ⟨_, he, rfl, s, rfl, hf⟩ |
      ⟨_, he, r0, rs', rfl, hf⟩
    · rw [hf] at ha; cases ha
      exact ⟨rs, fail, h, by simp [got], id, by simp, fun h1 h2 h3 => ⟨h1, h2, h3⟩⟩
    · cases hc
    · rw [hf] at ha; cases ha
      exact ⟨[], none, ⟨h.stream, fun _ => ⟨hbuf, rfl, rfl⟩, h.head⟩, by simp [got, aPending], id, by simp,
        fun h1 h2 h3 => ⟨h1, h2, h3⟩⟩
    · rw [hf] at ha; cases ha
      exact ⟨[], none, ⟨rfl, fun hc => (by rw [he] at hc; cases hc), h.head⟩, by simp [got, aPending, hbuf, wanted],
        fun _ => trivial, by simp, fun h1 _ h3 => by cases h3⟩
    · rw [hf] at ha; cases ha
      exact ⟨rs', fail, ⟨rfl, fun hc => (by rw [he] at hc; cases hc), by simp⟩,
        by simp [got, aPending, hbuf, wanted_cons], fun hs => hs.2, by simp, fun _ h2 _ => by cases h2⟩

theorem asyncNext_spec {a : AsyncResp} {rs : List Response} {fail : Option Status} (h : AInv a rs fail) :
    ∃ rs' fail', AInv (asyncNext a).2 rs' fail' ∧
      aPending a rs fail = got (.item (asyncNext a).1) ++ aPending (asyncNext a).2 rs' fail' ∧
      ((asyncNext a).1 = none → aPending (asyncNext a).2 rs' fail' = []) ∧ (Shape fail rs → Shape fail' rs') ∧
      (asyncNext a).1 ≠ some (.error .timeout) := by
  unfold asyncNext
  by_cases he : a.ended = true
  · rw [if_pos he]
    obtain ⟨h1, rfl, rfl⟩ := h.done he
    exact ⟨[], none, ⟨h.stream, fun _ => ⟨rfl, rfl, rfl⟩, by simp⟩, by simp [got, aPending, h1], fun _ => by
      simp [aPending, wanted], id, by simp⟩
  · rw [if_neg he]
    cases hb : a.buffer with
    | cons ev buf =>
      simp only
      refine ⟨rs, fail, ⟨h.stream, fun hc => absurd hc he, fun _ => h.head (by simp [hb])⟩, by
        simp [got, aPending, hb], fun hc => (nomatch hc), id, by simp⟩
    | nil =>
      simp only
      rw [h.stream]
      obtain ⟨rs', fail', h1, h2, h3, h4, h5⟩ := pollStream_spec rs fail a.lastHead (Prod.eta _).symm
      refine ⟨rs', fail', h1, by simpa [aPending, hb] using h2, fun hc => ?_, h4, h5⟩
      obtain ⟨i1, i2, i3⟩ := h3 hc
      simp [aPending, i1, i2, i3, wanted]

/-- One call on an async response.  Whatever the messages, nothing is lost or repeated, and `next` says end only at the
end; if empty messages come only last, so does `next_batch`. -/
theorem asyncOp_spec {a : AsyncResp} {rs : List Response} {fail : Option Status} (h : AInv a rs fail) (op : Op) :
    ∃ rs' fail', AInv (asyncOp a op).2 rs' fail' ∧ (Shape fail rs → Shape fail' rs') ∧
      aPending a rs fail = got (asyncOp a op).1 ++ aPending (asyncOp a op).2 rs' fail' ∧
      ((asyncOp a op).1 = .item none → aPending (asyncOp a op).2 rs' fail' = []) ∧
      (Shape fail rs → SaysEnd (asyncOp a op).1 → aPending (asyncOp a op).2 rs' fail' = []) := by
  have hnext : ∀ o, o = (Out.item (asyncNext a).1, (asyncNext a).2) → ∃ rs' fail', AInv o.2 rs' fail' ∧ (Shape fail rs → Shape fail' rs') ∧
      aPending a rs fail = got o.1 ++ aPending o.2 rs' fail' ∧
      (o.1 = .item none → aPending o.2 rs' fail' = []) ∧
      (Shape fail rs → SaysEnd o.1 → aPending o.2 rs' fail' = []) := by
    intro o ho
    subst ho
    obtain ⟨rs', fail', h1, h2, h3, h4, _⟩ := asyncNext_spec h
    have : Out.item (asyncNext a).1 = .item none → (asyncNext a).1 = none := by
      intro hc; injection hc
    refine ⟨rs', fail', h1, h4, h2, fun hc => h3 (this hc), fun _ hc => h3 ?_⟩
    cases hn : (asyncNext a).1 with
    | none => rfl
    | some x => simp [hn, SaysEnd] at hc
  have hbatch : ∀ f o, o = (Out.batch (asyncNextBatch f a).1, (asyncNextBatch f a).2) → ∃ rs' fail', AInv o.2 rs' fail' ∧ (Shape fail rs → Shape fail' rs') ∧
      aPending a rs fail = got o.1 ++ aPending o.2 rs' fail' ∧
      (o.1 = .item none → aPending o.2 rs' fail' = []) ∧
      (Shape fail rs → SaysEnd o.1 → aPending o.2 rs' fail' = []) := by
    intro f o ho
    subst ho
    obtain ⟨rs', fail', h1, h2, h3, _, h5, _⟩ := asyncNextBatch_spec h f (Prod.eta _).symm
    refine ⟨rs', fail', h1, fun hs => (h5 hs).1, h2, fun hc => (nomatch hc), fun hs hc => ?_⟩
    have hr : (asyncNextBatch f a).1 = .ok [] := by
      rcases hn : (asyncNextBatch f a).1 with x | _ | ⟨a, l⟩
      · simp [hn, SaysEnd] at hc
      · rfl
      · simp [hn, SaysEnd] at hc
    obtain ⟨rfl, rfl⟩ := (h5 hs).2 hr
    simp [aPending, h3, wanted]
  cases op with
  | next => exact hnext _ rfl
  | nextTimeout f => exact hnext _ rfl
  | nextBatch => exact hbatch false _ rfl
  | nextBatchTimeout f => exact hbatch f _ rfl
  | head =>
    obtain ⟨rs', fail', h1, h2, h3, _⟩ := asyncHead_spec h (Prod.eta _).symm
    exact ⟨rs', fail', h1, h3, h2, fun hc => (nomatch hc), fun _ hc => by simp [asyncOp, SaysEnd] at hc⟩

/-- Runs of an object whose single calls hand out a prefix of what is pending, and say end only when nothing is. -/
theorem runOps_spec {σ : Type} {step : σ → Op → Out × σ} {E : Out → Prop}
    (Inv : σ → List (Except Err SeqEvent) → Prop)
    (hstep : ∀ s p op, Inv s p → ∃ p', Inv (step s op).2 p' ∧ p = got (step s op).1 ++ p' ∧ (E (step s op).1 → p' = []))
    (ops : List Op) : ∀ s p, Inv s p → ∃ p', Inv (runOps step s ops).2 p' ∧
      p = (runOps step s ops).1.flatMap got ++ p' ∧ ((∃ o ∈ (runOps step s ops).1, E o) → p' = []) := by
  induction ops with
  | nil => intro s p h; exact ⟨p, h, by simp [runOps], by simp [runOps]⟩
  | cons op ops ih =>
    intro s p h
    obtain ⟨p1, h1, h2, h3⟩ := hstep s p op h
    obtain ⟨p2, i1, i2, i3⟩ := ih _ _ h1
    refine ⟨p2, i1, ?_, ?_⟩
    · simp only [runOps, List.flatMap_cons, List.append_assoc]
      rw [← i2]; exact h2
    · simp only [runOps, List.mem_cons]
      rintro ⟨o, rfl | ho, he⟩
      · rw [h3 he] at i2
        exact (List.append_eq_nil_iff.mp i2.symm).2
      · exact i3 ⟨o, ho, he⟩

/-- Calling `next` again and again hands out everything. -/
theorem runOps_next {σ : Type} {step : σ → Op → Out × σ}
    (Inv : σ → List (Except Err SeqEvent) → Prop)
    (hstep : ∀ s p, Inv s p → ∃ r, (step s .next).1 = .item r ∧ r ≠ some (.error .timeout) ∧
      ∃ p', Inv (step s .next).2 p' ∧ p = got (.item r) ++ p' ∧ (r = none → p' = [])) :
    ∀ (p : List (Except Err SeqEvent)) s, Inv s p →
      (runOps step s (List.replicate (p.length + 1) .next)).1 = p.map (fun r => .item (some r)) ++ [.item none] := by
  intro p
  induction p with
  | nil =>
    intro s h
    obtain ⟨r, h1, h2, p', h3, h4, h5⟩ := hstep s [] h
    cases r with
    | none => simp [runOps, h1]
    | some r =>
      have : got (.item (some r)) = [r] := by
        unfold got; split <;> simp_all
      rw [this] at h4; simp at h4
  | cons x p ih =>
    intro s h
    obtain ⟨r, h1, h2, p', h3, h4, h5⟩ := hstep s _ h
    cases r with
    | none =>
      rw [h5 rfl] at h4; simp [got] at h4
    | some r =>
      have : got (.item (some r)) = [r] := by
        unfold got; split <;> simp_all
      rw [this] at h4
      simp only [List.cons_append, List.nil_append, List.cons.injEq] at h4
      obtain ⟨rfl, rfl⟩ := h4
      rw [List.length_cons, List.replicate_succ, runOps]
      simp only
      rw [ih _ h3, h1]
      rfl

end Uma.Net
