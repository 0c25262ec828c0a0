import Verif.Server.Stream
import Verif.Db.ReadCorrect
import Verif.Db.Lawful
import Verif.Db.AppendProof

/-! Proofs about the streaming loops. -/

namespace Uma.Server
open Uma.Db Uma.Spec

variable {δ σ υ ι : Type} {B : Backend δ σ υ ι} {valid : Record → Prop}

/-- The handler's read is exact, or cancelled. -/
theorem handlerRead_spec {env : Env} (he : EnvOk env) (L : Lawful B env.H valid) {d : δ} {s : Spec.Db}
    (hd : L.RepD d s) (query : Option Query) (start : Option Nat) (backwards : Bool) (limit : Option Nat)
    (c : Cancel) :
    handlerRead B env d query start backwards limit c =
      .ok (Spec.read s.log (query.getD ⟨[]⟩) start backwards limit, Spec.head s.log) ∨
    (handlerRead B env d query start backwards limit c = .error .cancelledByUser ∧ ∃ j, c j = true) := by
  unfold handlerRead
  rcases readConditional_correct env.H env.ord he.ord _ _ (L.snapR hd) (query.getD ⟨[]⟩) start backwards limit
    false c with h | ⟨h, hj⟩
  · left
    rw [h]
    simp only [L.nextPosR hd, Spec.head]
    cases hl : s.log with
    | nil => simp
    | cons a l => simp
  · right; rw [h]; exact ⟨rfl, hj⟩

/-- `a` is delivered before `b`. -/
def Before (backwards : Bool) (a b : SeqEvent) : Prop :=
  if backwards then b.position < a.position else a.position < b.position

instance (b : Bool) (x y : SeqEvent) : Decidable (Before b x y) :=
  inferInstanceAs (Decidable (if b then y.position < x.position else x.position < y.position))

/-- The matching events in delivery order. -/
def ordered (log : Log) (q : Query) (backwards : Bool) : List SeqEvent :=
  let s := (sequenced log).filter fun e => decide (Matches q e.event)
  if backwards then s.reverse else s

theorem read_eq_ordered (log : Log) (q : Query) (start : Option Nat) (backwards : Bool) (limit : Option Nat) :
    Spec.read log q start backwards limit =
      applyLimit limit ((ordered log q backwards).filter fun e => decide (InRange start backwards e.position)) := by
  unfold Spec.read ordered
  cases backwards <;> simp [List.filter_filter, List.filter_reverse]

theorem mem_sequenced {log : Log} {e : SeqEvent} (h : e ∈ sequenced log) : 1 ≤ e.position ∧ e.position ≤ log.length := by
  obtain ⟨⟨p, r⟩, hp, rfl⟩ := List.mem_map.mp h
  obtain ⟨h1, h2⟩ := mem_numberFrom.mp hp
  obtain ⟨h3, _⟩ := List.getElem?_eq_some_iff.mp h2
  simp only [toSeq]; omega

theorem mem_ordered {log : Log} {q : Query} {b : Bool} {e : SeqEvent} (h : e ∈ ordered log q b) :
    1 ≤ e.position ∧ e.position ≤ log.length := by
  unfold ordered at h
  cases b <;> simp [List.mem_filter] at h <;> exact mem_sequenced h.1

theorem ordered_pairwise (log : Log) (q : Query) (b : Bool) : (ordered log q b).Pairwise (Before b) := by
  have h : (sequenced log).Pairwise (fun a b => a.position < b.position) := by
    rw [sequenced, List.pairwise_map]
    exact (numberFrom_pairwise 1 log).imp (fun h => h)
  have h := h.filter (fun e => decide (Matches q e.event))
  unfold ordered Before
  cases b
  · simpa using h
  · simp only [if_true]; rw [List.pairwise_reverse]; exact h

/-- Events still to come, given a start position. -/
def todo (log : Log) (q : Query) (backwards : Bool) (start : Option Nat) : List SeqEvent :=
  (ordered log q backwards).filter fun e => decide (InRange start backwards e.position)

theorem read_eq_todo (log : Log) (q : Query) (start : Option Nat) (backwards : Bool) (limit : Option Nat) :
    Spec.read log q start backwards limit = applyLimit limit (todo log q backwards start) :=
  read_eq_ordered ..

theorem todo_pairwise (log : Log) (q : Query) (b : Bool) (start : Option Nat) :
    (todo log q b start).Pairwise (Before b) := (ordered_pairwise log q b).filter _

theorem mem_todo {log : Log} {q : Query} {b : Bool} {start : Option Nat} {e : SeqEvent} (h : e ∈ todo log q b start) :
    1 ≤ e.position ∧ e.position ≤ log.length ∧ InRange start b e.position := by
  have := List.mem_filter.mp h
  exact ⟨(mem_ordered this.1).1, (mem_ordered this.1).2, by simpa using this.2⟩

/-- Moving the cursor past `e` leaves exactly what comes after `e`. -/
theorem todo_advance {log : Log} {q : Query} {b : Bool} {start : Option Nat} {l r : List SeqEvent} {e : SeqEvent}
    (hlen : log.length < u64Max) (h : todo log q b start = l ++ e :: r) :
    todo log q b (some (advance b e.position)) = r := by
  have hm : e ∈ todo log q b start := by rw [h]; simp
  have he := mem_todo hm
  have hp := todo_pairwise log q b start
  have : todo log q b (some (advance b e.position)) =
      (todo log q b start).filter (fun x => decide (Before b e x)) := by
    unfold todo
    rw [List.filter_filter]
    apply List.filter_congr
    intro x hx
    have hx' := mem_ordered hx
    rw [Bool.eq_iff_iff]
    simp only [decide_eq_true_iff, Bool.and_eq_true]
    unfold InRange Before advance
    cases b
    · have h1 := he.2.2
      unfold InRange at h1
      cases start with
      | none => simp; omega
      | some s => simp at h1 ⊢; omega
    · have h1 := he.2.2
      unfold InRange at h1
      cases start with
      | none => simp; omega
      | some s => simp at h1 ⊢; omega
  rw [this, h, List.filter_append, List.filter_cons]
  rw [h] at hp
  have h1 : l.filter (fun x => decide (Before b e x)) = [] := by
    rw [List.filter_eq_nil_iff]
    intro x hx
    have := (List.pairwise_append.mp hp).2.2 x hx e (by simp)
    unfold Before at this ⊢
    cases b <;> simp at this ⊢ <;> omega
  have h2 : r.filter (fun x => decide (Before b e x)) = r := by
    rw [List.filter_eq_self]
    intro x hx
    have := (List.pairwise_cons.mp (List.pairwise_append.mp hp).2.1).1 x hx
    simpa using this
  rw [h1, h2]
  unfold Before
  cases b <;> simp

theorem numberFrom_append' {α} (n : Nat) (l l' : List α) :
    numberFrom n (l ++ l') = numberFrom n l ++ numberFrom (n + l.length) l' := numberFrom_append ..

/-- What a longer log adds is delivered after everything of the shorter one (forward) … -/
theorem todo_grow_fwd {log log' : Log} (hp : log <+: log') (q : Query) (start : Option Nat) :
    ∃ ext, todo log' q false start = todo log q false start ++ ext ∧ ∀ e ∈ ext, log.length < e.position := by
  obtain ⟨t, rfl⟩ := hp
  refine ⟨((((numberFrom (1 + log.length) t).map toSeq).filter fun e => decide (Matches q e.event)).filter
    fun e => decide (InRange start false e.position)), ?_, ?_⟩
  · simp [todo, ordered, sequenced, numberFrom_append]
  · intro e he
    have := (List.mem_filter.mp (List.mem_filter.mp he).1).1
    obtain ⟨⟨p, r⟩, hp, rfl⟩ := List.mem_map.mp this
    have := (mem_numberFrom.mp hp).1
    simp only [toSeq]; omega

/-- … and is outside the range of a backward read below the old head. -/
theorem todo_grow_bwd {log log' : Log} (hp : log <+: log') (q : Query) {s : Nat} (hs : s ≤ log.length) :
    todo log' q true (some s) = todo log q true (some s) := by
  obtain ⟨t, rfl⟩ := hp
  simp only [todo, ordered, sequenced, numberFrom_append, List.map_append, List.filter_append, List.reverse_append,
    if_true]
  have : ((((numberFrom (1 + log.length) t).map toSeq).filter fun e => decide (Matches q e.event)).reverse.filter
    fun e => decide (InRange (some s) true e.position)) = [] := by
    rw [List.filter_eq_nil_iff]
    intro e he
    rw [List.mem_reverse] at he
    have := (List.mem_filter.mp he).1
    obtain ⟨⟨p, r⟩, hp, rfl⟩ := List.mem_map.mp this
    have := (mem_numberFrom.mp hp).1
    simp [toSeq, InRange]; omega
  rw [this]; simp

/-- Databases seen by successive rounds: each holds a log extending the first one. -/
structure Rounds (L : Lawful B H valid) (dbs : Nat → δ) (log0 : Log) where
  ss : Nat → Spec.Db
  rep : ∀ k, L.RepD (dbs k) (ss k)
  first : (ss 0).log = log0
  grow : ∀ k, log0 <+: (ss k).log
  small : ∀ k, (ss k).log.length < u64Max

theorem take_filter_prefix {α} {p : α → Bool} {l ext : List α} (n : Nat) (h1 : ∀ a ∈ l, p a = true)
    (h2 : ∀ a ∈ ext, p a = false) : ((l ++ ext).take n).filter p = l.take n := by
  rw [List.take_append, List.filter_append]
  have : (l.take n).filter p = l.take n := List.filter_eq_self.mpr fun a ha => h1 a (List.mem_of_mem_take ha)
  rw [this]
  have : (ext.take (n - l.length)).filter p = [] :=
    List.filter_eq_nil_iff.mpr fun a ha => by simp [h2 a (List.mem_of_mem_take ha)]
  rw [this, List.append_nil]

/-- What is left to deliver under a limit. -/
def owed (a : ReadArgs) (st : ReadState) (rest : List SeqEvent) : List SeqEvent :=
  if a.limit.isSome then rest.take st.remaining else rest

/-- Every event-carrying message has the right head. -/
def HeadOk (a : ReadArgs) (log0 : Log) (m : Response) : Prop :=
  m.head = if a.limit.isSome then m.events.getLast?.map (·.position) else Spec.head log0

/-- Effect of one successful round in terms of the specification: either the task ends having delivered all that was
owed, or it delivered a non-empty part and goes on behind it. -/
theorem onRead_spec (a : ReadArgs) (st : ReadState) (log0 logk : Log) (rl : Nat) (hrl : 0 < rl) (hrl' : rl ≤ 4096)
    (hrem : a.limit.isSome → rl ≤ st.remaining) (rest ext : List SeqEvent)
    (hcap : st.haveCaptured = true → st.captured = Spec.head log0 ∧ log0 ≠ [])
    (hfirst : st.haveCaptured = false → logk = log0 ∧ ext = [])
    (hrest : ∀ e ∈ rest, 1 ≤ e.position ∧ e.position ≤ log0.length) (hext : ∀ e ∈ ext, log0.length < e.position) :
    (∃ m, onRead a st rl (.ok ((rest ++ ext).take rl, Spec.head logk)) = (m, none) ∧
      (∀ x ∈ m, ∃ r, x = .ok r ∧ HeadOk a log0 r) ∧
      delivered m.toList = owed a st rest ∧ (st.sentAny = false → m.isSome)) ∨
    (∃ r last l2, onRead a st rl (.ok ((rest ++ ext).take rl, Spec.head logk)) =
        (some (.ok r), some ⟨some (advance a.backwards last.position), true,
          if a.limit.isSome then st.remaining - r.events.length else st.remaining, Spec.head log0, true⟩) ∧
      HeadOk a log0 r ∧ r.events.getLast? = some last ∧ rest = r.events ++ l2 ∧
      (a.limit.isSome → r.events.length < st.remaining) ∧ log0 ≠ []) := by
  have hc : (if st.haveCaptured then st.captured else Spec.head logk) = Spec.head log0 := by
    cases hv : st.haveCaptured with
    | true => simp [(hcap hv).1]
    | false => simp [(hfirst hv).1]
  have hempty : log0 = [] → ext = [] := by
    intro hl
    cases hv : st.haveCaptured with
    | true => exact absurd hl (hcap hv).2
    | false => exact (hfirst hv).2
  have hrest0 : log0 = [] → rest = [] := by
    intro hl
    cases rest with
    | nil => rfl
    | cons e r => have := hrest e (by simp); simp [hl] at this; omega
  generalize hres : rest.take rl = res
  have hk : ((rest ++ ext).take rl).filter (withinHead (Spec.head log0)) = res := by
    subst hres
    by_cases hl : log0 = []
    · rw [hempty hl, List.append_nil, List.filter_eq_self]
      intro e _; simp [withinHead, Spec.head, hl]
    · exact take_filter_prefix rl (fun e he => by simpa [withinHead, Spec.head, hl] using (hrest e he).2)
        (fun e he => by have := hext e he; simp [withinHead, Spec.head, hl]; omega)
  have h1 : ((rest ++ ext).take rl).length % 2 ^ 32 = min rl (rest ++ ext).length := by
    rw [List.length_take]; exact Nat.mod_eq_of_lt (by omega)
  have hlres : res.length = min rl rest.length := by rw [← hres, List.length_take]
  have h2 : res.length % 2 ^ 32 = res.length := Nat.mod_eq_of_lt (by omega)
  unfold onRead
  simp only [hc, hk, h1, h2]
  cases hlast : res.getLast? with
  | none =>
    left
    have hnil : res = [] := by simpa using hlast
    have hr : rest = [] := by
      cases rest with
      | nil => rfl
      | cons e r => rw [hnil] at hlres; simp at hlres; omega
    refine ⟨_, rfl, ?_, ?_, ?_⟩
    · intro x hx
      simp only [Option.mem_def] at hx
      split at hx
      · cases hx
      · cases hx; exact ⟨_, rfl, by simp [HeadOk]⟩
    · subst hr
      have : owed a st [] = [] := by simp [owed]
      rw [this]
      split <;> simp [delivered]
    · intro h; simp [h]
  | some last =>
    simp only
    have hsplit : rest = res ++ rest.drop rl := by rw [← hres, List.take_append_drop]
    have hhead : HeadOk a log0 ⟨res, if a.limit.isSome then some last.position else Spec.head log0⟩ := by
      simp [HeadOk, hlast]
    split
    · rename_i hstop
      left
      refine ⟨_, rfl, ?_, ?_, by simp⟩
      · intro x hx; cases hx; exact ⟨_, rfl, hhead⟩
      · have hall : res = rest := by
          rw [← hres]
          apply List.take_of_length_le
          rcases hstop with h | ⟨_, h⟩
          · rw [List.length_append] at h; omega
          · rw [hlres] at h; simp at h; omega
        simp only [delivered, Option.toList_some, List.flatMap_cons, List.flatMap_nil, List.append_nil, owed]
        split
        · rename_i hl
          have := hrem hl
          rw [hall, List.take_of_length_le]
          rw [← hall, hlres]; omega
        · exact hall
    · rename_i hstop
      by_cases hz : a.limit.isSome = true ∧ (if a.limit.isSome = true then st.remaining - res.length else
          st.remaining) = 0
      · rw [if_pos hz]
        left
        refine ⟨_, rfl, ?_, ?_, by simp⟩
        · intro x hx; cases hx; exact ⟨_, rfl, hhead⟩
        · simp only [if_pos hz.1] at hz
          have := hrem hz.1
          simp only [delivered, Option.toList_some, List.flatMap_cons, List.flatMap_nil, List.append_nil, owed,
            if_pos hz.1]
          have : st.remaining = rl ∨ rest.length ≤ rl := by omega
          rcases this with h | h
          · rw [h, hres]
          · rw [← hres, List.take_of_length_le h, List.take_of_length_le (by omega)]
      · rw [if_neg hz]
        right
        refine ⟨_, last, rest.drop rl, rfl, hhead, hlast, hsplit, ?_, ?_⟩
        · intro hl
          simp only [hl, if_true, true_and] at hz
          simp only; omega
        · intro hl
          rw [hrest0 hl] at hres
          simp at hres
          rw [hres] at hlast
          simp at hlast

/-- Loop invariant of the read task in round `k`. -/
structure StreamInv (a : ReadArgs) (log0 : Log) (k : Nat) (st : ReadState) : Prop where
  cap : st.haveCaptured = true → st.captured = Spec.head log0 ∧ log0 ≠ [] ∧
    (a.backwards = true → ∃ s, st.nextStart = some s ∧ s ≤ log0.length)
  first : st.haveCaptured = false → k = 0
  nolimit : a.limit = none → st.remaining = u32Max

theorem owed_append {a : ReadArgs} {st : ReadState} {l1 l2 : List SeqEvent}
    (h : a.limit.isSome → l1.length < st.remaining) {st' : ReadState}
    (hst : st'.remaining = if a.limit.isSome then st.remaining - l1.length else st.remaining) :
    owed a st (l1 ++ l2) = l1 ++ owed a st' l2 := by
  unfold owed
  split
  · rename_i hl
    rw [hst, if_pos hl, List.take_append, List.take_of_length_le (by have := h hl; omega)]
  · rfl

theorem readTask_spec {env : Env} (he : EnvOk env) (L : Lawful B env.H valid) {dbs : Nat → δ} {log0 : Log}
    (R : Rounds L dbs log0) (a : ReadArgs) (hb : 0 < a.batch) (hb' : a.batch ≤ 4096)
    (gone : Nat → Bool) (cs : Nat → Cancel) (fuel k : Nat) (st : ReadState) (hi : StreamInv a log0 k st) :
    let rest := todo log0 (a.query.getD ⟨[]⟩) a.backwards st.nextStart
    let out := readTask B env a dbs gone cs fuel k st
    delivered out.1 <+: owed a st rest ∧
    (∀ m ∈ out.1, ∃ r, m = .ok r ∧ HeadOk a log0 r) ∧
    ((∀ k, gone k = false) → (∀ k j, cs k j = false) → rest.length < fuel →
      out.2 = true ∧ delivered out.1 = owed a st rest ∧
      (st.sentAny = false → ¬ (a.limit.isSome ∧ st.remaining = 0) → out.1 ≠ [])) := by
  induction fuel generalizing k st with
  | zero => intro rest out; exact ⟨by simp [out, readTask, delivered], by simp [out, readTask], by intro _ _ h; omega⟩
  | succ fuel ih =>
    intro rest out
    have hout : out = readTask B env a dbs gone cs (fuel + 1) k st := rfl
    rw [readTask] at hout
    by_cases hg : gone k = true
    · rw [if_pos hg] at hout
      rw [hout]
      refine ⟨by simp [delivered], by simp, ?_⟩
      intro h; rw [h k] at hg; cases hg
    rw [if_neg hg] at hout
    by_cases hz : a.limit.isSome = true ∧ st.remaining = 0
    · have : readRound B env a st (dbs k) (cs k) = (none, none) := by simp [readRound, hz]
      rw [this] at hout
      simp only [Option.toList_none] at hout
      rw [hout]
      have ho : owed a st rest = [] := by simp [owed, hz]
      refine ⟨by simp [delivered], by simp, ?_⟩
      intro _ _ _
      exact ⟨rfl, by simp [delivered, ho], fun _ h => absurd hz h⟩
    have hrl : 0 < min st.remaining a.batch := by
      have : 0 < st.remaining := by
        cases hl : a.limit with
        | none => rw [hi.nolimit hl]; decide
        | some n => simp [hl] at hz; omega
      omega
    have hround : readRound B env a st (dbs k) (cs k) = onRead a st (min st.remaining a.batch)
        (handlerRead B env (dbs k) a.query st.nextStart a.backwards (some (min st.remaining a.batch)) (cs k)) := by
      simp [readRound, hz]
    -- what the snapshot of this round holds
    obtain ⟨ext, hext, hextpos, hextnil⟩ : ∃ ext,
        todo (R.ss k).log (a.query.getD ⟨[]⟩) a.backwards st.nextStart = rest ++ ext ∧
        (∀ e ∈ ext, log0.length < e.position) ∧ (st.haveCaptured = false → ext = []) := by
      cases hc : st.haveCaptured with
      | false =>
        have := hi.first hc
        subst this
        exact ⟨[], by rw [R.first]; simp [rest], by simp, by simp⟩
      | true =>
        cases hbw : a.backwards with
        | true =>
          obtain ⟨s, hs, hs'⟩ := (hi.cap hc).2.2 hbw
          refine ⟨[], ?_, by simp, by simp⟩
          rw [hs, todo_grow_bwd (R.grow k) _ hs']
          simp [rest, hs, hbw]
        | false =>
          obtain ⟨ext, h1, h2⟩ := todo_grow_fwd (R.grow k) (a.query.getD ⟨[]⟩) st.nextStart
          exact ⟨ext, by rw [h1]; simp [rest, hbw], h2, by simp⟩
    rcases handlerRead_spec he L (R.rep k) a.query st.nextStart a.backwards (some (min st.remaining a.batch)) (cs k)
      with hr | ⟨hr, j, hj⟩
    · rw [hr, read_eq_todo, hext] at hround
      simp only [applyLimit] at hround
      have hspec := onRead_spec a st log0 (R.ss k).log (min st.remaining a.batch) hrl (by omega) (by omega) rest ext
        (fun h => ⟨(hi.cap h).1, (hi.cap h).2.1⟩)
        (fun h => ⟨by have := hi.first h; subst this; exact R.first, hextnil h⟩)
        (fun e h => ⟨(mem_todo h).1, (mem_todo h).2.1⟩) hextpos
      rw [← hround] at hspec
      rcases hspec with ⟨m, h1, h2, h3, h4⟩ | ⟨r, last, l2, h1, h2, h3, h4, h5, h6⟩
      · rw [h1] at hout
        simp only at hout
        rw [hout]
        refine ⟨by rw [h3]; exact List.prefix_refl _, ?_, ?_⟩
        · intro x hx; exact h2 x (by simpa using hx)
        · intro _ _ _
          refine ⟨rfl, h3, fun hs _ => ?_⟩
          have := h4 hs
          cases m with
          | none => simp at this
          | some x => simp
      · rw [h1] at hout
        simp only at hout
        generalize hst' : (⟨some (advance a.backwards last.position), true,
          if a.limit.isSome then st.remaining - r.events.length else st.remaining, Spec.head log0, true⟩ : ReadState)
            = st' at hout
        obtain ⟨pre, hpre⟩ : ∃ pre, r.events = pre ++ [last] :=
          List.getLast?_eq_some_iff.mp h3
        have hlast : last ∈ rest := by rw [h4, hpre]; simp
        have hadv : todo log0 (a.query.getD ⟨[]⟩) a.backwards st'.nextStart = l2 := by
          subst hst'
          apply todo_advance (l := pre) (start := st.nextStart)
          · have := R.small 0; rwa [R.first] at this
          · change rest = _
            rw [h4, hpre]; simp
        have hi' : StreamInv a log0 (k + 1) st' := by
          subst hst'
          refine ⟨?_, by simp, ?_⟩
          · intro _
            refine ⟨rfl, h6, ?_⟩
            intro hbw
            refine ⟨_, rfl, ?_⟩
            have := mem_todo hlast
            simp [advance, hbw]; omega
          · intro hl; simp [hl, hi.nolimit hl]
        have hrem' : st'.remaining = if a.limit.isSome then st.remaining - r.events.length else st.remaining := by
          subst hst'; rfl
        obtain ⟨i1, i2, i3⟩ := ih (k + 1) st' hi'
        rw [hadv] at i1 i3
        have ho : owed a st rest = r.events ++ owed a st' l2 := by rw [h4]; exact owed_append h5 hrem'
        rw [hout]
        simp only [Option.toList_some]
        have hd : ∀ ms, delivered ([.ok r] ++ ms) = r.events ++ delivered ms := by intro ms; simp [delivered]
        rw [hd, ho]
        refine ⟨(List.prefix_append_right_inj _).mpr i1, ?_, ?_⟩
        · intro m hm
          rcases List.mem_append.mp hm with hm | hm
          · simp only [List.mem_singleton] at hm; subst hm; exact ⟨r, rfl, h2⟩
          · exact i2 m hm
        · intro g1 g2 g3
          have hlen : l2.length < fuel := by
            have : rest.length = r.events.length + l2.length := by rw [h4]; simp
            have : 0 < r.events.length := by rw [hpre]; simp
            omega
          obtain ⟨j1, j2, _⟩ := i3 g1 g2 hlen
          exact ⟨j1, by rw [j2], by simp⟩
    · rw [hr] at hround
      have : readRound B env a st (dbs k) (cs k) = (none, none) := by rw [hround]; rfl
      rw [this] at hout
      simp only [Option.toList_none] at hout
      rw [hout]
      refine ⟨by simp [delivered], by simp, ?_⟩
      intro _ h; rw [h k j] at hj; cases hj

/-- The cursor stays in the range of `u64`. -/
theorem advance_fits {b : Bool} {p : Nat} (h : p < 2 ^ 64) : advance b p < 2 ^ 64 := by
  unfold advance u64Max
  split <;> omega

/-- The cursor moves by one position in the direction of reading, except at the ends of the range of `u64`. -/
theorem advance_moves {p : Nat} (h : p < 2 ^ 64 - 1) (h0 : 0 < p) :
    advance false p = p + 1 ∧ advance true p + 1 = p ∧ advance true 0 = 0 ∧ advance false (2 ^ 64 - 1) = 2 ^ 64 - 1 := by
  unfold advance u64Max
  simp
  omega

theorem streamInv_init (a : ReadArgs) (log0 : Log) : StreamInv a log0 0 (ReadState.init a) :=
  ⟨by simp [ReadState.init], by simp, by intro h; simp [ReadState.init, h]⟩

end Uma.Server
