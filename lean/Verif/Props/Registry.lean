import Verif.Net.Registry

/-! # C60: `close` cancels the client's own open streams and no others -/

namespace Uma.Props
open Uma.Net

/-- What cancels stream `i` of client `c`. -/
inductive Stops (c i : Nat) : Act → Prop
  | self : Stops c i (.cancels i)
  | close : Stops c i (.closes c)
  | all : Stops c i .cancelsAll

instance (c i : Nat) (a : Act) : Decidable (Stops c i a) :=
  match a with
  | .cancels j => if h : j = i then .isTrue (h ▸ .self) else .isFalse (fun hc => by cases hc; exact h rfl)
  | .closes d => if h : d = c then .isTrue (h ▸ .close) else .isFalse (fun hc => by cases hc; exact h rfl)
  | .cancelsAll => .isTrue .all
  | .opens _ => .isFalse (fun hc => by cases hc)
  | .drops _ => .isFalse (fun hc => by cases hc)

/-- Guards point to streams, and no two streams of a client share one. -/
structure ProcInv (p : Proc) : Prop where
  fresh : ∀ (i : Nat) (s : Strm), p.streams[i]? = some s → s.guard < (p.regs s.client).nextId
  entry : ∀ c id i : Nat, (id, i) ∈ (p.regs c).active → ∃ s : Strm, p.streams[i]? = some s ∧ s.client = c ∧ s.guard = id
  apart : ∀ (i j : Nat) (s t : Strm), p.streams[i]? = some s → p.streams[j]? = some t → s.client = t.client → s.guard = t.guard → i = j

theorem signal_get (i j : Nat) (l : List Strm) :
    (signal i l)[j]? = (l[j]?).map (fun s => if i = j then { s with cancelled := true } else s) := by
  simp only [signal, List.getElem?_modify]
  by_cases h : i = j
  · simp [h]
  · simp [h]

theorem signals_get (hs : List Nat) : ∀ (l : List Strm) (j : Nat),
    (hs.foldl (fun l i => signal i l) l)[j]? =
      (l[j]?).map (fun s => if j ∈ hs then { s with cancelled := true } else s) := by
  induction hs with
  | nil => intro l j; simp
  | cons a hs ih =>
    intro l j
    rw [List.foldl_cons, ih, signal_get]
    cases l[j]? with
    | none => rfl
    | some s =>
      simp only [Option.map_some, List.mem_cons]
      by_cases h1 : a = j
      · subst h1
        by_cases h2 : a ∈ hs <;> simp [h2]
      · have : ¬ j = a := fun h => h1 h.symm
        simp [h1, this]

theorem mem_put {k v : Nat} {l : List (Nat × Nat)} {x : Nat × Nat} :
    x ∈ put k v l ↔ x = (k, v) ∨ (x ∈ l ∧ x.1 ≠ k) := by
  simp [put]

/-- A step keeps who opened a stream and with which guard. -/
theorem act_stream (p : Proc) (a : Act) (i : Nat) (s : Strm) (h : p.streams[i]? = some s) :
    ∃ s', (p.act a).streams[i]? = some s' ∧ s'.client = s.client ∧ s'.guard = s.guard := by
  cases a with
  | opens c =>
    refine ⟨s, ?_, rfl, rfl⟩
    simp only [Proc.act, Registry.register]
    rw [List.getElem?_append_left (List.getElem?_eq_some_iff.mp h).1]
    exact h
  | drops j =>
    refine ⟨s, ?_, rfl, rfl⟩
    simp only [Proc.act]
    split <;> exact h
  | cancels j =>
    simp only [Proc.act, signal_get, h, Option.map_some]
    by_cases hj : j = i <;> simp [hj]
  | closes c =>
    simp only [Proc.act, Registry.drain, signals_get, h, Option.map_some]
    split <;> simp
  | cancelsAll => simp [Proc.act, h]

/-- The other direction: a stream after the step is an old one or the one just opened. -/
theorem act_stream_inv (p : Proc) (a : Act) (i : Nat) (s' : Strm) (h : (p.act a).streams[i]? = some s') :
    (∃ s, p.streams[i]? = some s ∧ s'.client = s.client ∧ s'.guard = s.guard) ∨
    (∃ c, a = .opens c ∧ i = p.streams.length ∧ s' = ⟨c, (p.regs c).nextId, false⟩) := by
  cases a with
  | opens c =>
    simp only [Proc.act, Registry.register] at h
    rcases Nat.lt_or_ge i p.streams.length with hl | hl
    · rw [List.getElem?_append_left hl] at h
      exact Or.inl ⟨s', h, rfl, rfl⟩
    · rw [List.getElem?_append_right hl] at h
      have hi : i - p.streams.length = 0 := by
        cases hd : i - p.streams.length with
        | zero => rfl
        | succ n => rw [hd] at h; simp at h
      rw [hi] at h
      simp at h
      exact Or.inr ⟨c, rfl, by omega, h.symm⟩
  | drops j =>
    left
    simp only [Proc.act] at h
    split at h <;> exact ⟨s', h, rfl, rfl⟩
  | cancels j =>
    left
    simp only [Proc.act, signal_get, Option.map_eq_some_iff] at h
    obtain ⟨s, h1, h2⟩ := h
    refine ⟨s, h1, ?_, ?_⟩ <;> (rw [← h2]; split <;> rfl)
  | closes c =>
    left
    simp only [Proc.act, Registry.drain, signals_get, Option.map_eq_some_iff] at h
    obtain ⟨s, h1, h2⟩ := h
    refine ⟨s, h1, ?_, ?_⟩ <;> (rw [← h2]; split <;> rfl)
  | cancelsAll =>
    left
    simp only [Proc.act, List.getElem?_map, Option.map_eq_some_iff] at h
    obtain ⟨s, h1, h2⟩ := h
    exact ⟨s, h1, by rw [← h2], by rw [← h2]⟩

theorem act_nextId (p : Proc) (a : Act) (c : Nat) : (p.regs c).nextId ≤ ((p.act a).regs c).nextId := by
  cases a with
  | opens d => simp only [Proc.act, Registry.register, setReg]; split <;> simp_all
  | drops j =>
    simp only [Proc.act]
    split
    · simp only [setReg, Registry.deregister]; split <;> simp_all
    · exact Nat.le_refl _
  | cancels j => exact Nat.le_refl _
  | closes d => simp only [Proc.act, Registry.drain, setReg]; split <;> simp_all
  | cancelsAll => exact Nat.le_refl _

theorem act_entry (p : Proc) (a : Act) (c id i : Nat) (h : (id, i) ∈ ((p.act a).regs c).active) :
    (id, i) ∈ (p.regs c).active ∨ (a = .opens c ∧ id = (p.regs c).nextId ∧ i = p.streams.length) := by
  cases a with
  | opens d =>
    simp only [Proc.act, Registry.register, setReg] at h
    by_cases hd : c = d
    · rw [if_pos hd] at h
      simp only [mem_put] at h
      rcases h with h | h
      · cases h; exact Or.inr ⟨by rw [hd], by rw [hd], rfl⟩
      · exact Or.inl (by rw [hd]; exact h.1)
    · rw [if_neg hd] at h; exact Or.inl h
  | drops j =>
    simp only [Proc.act] at h
    split at h
    · rename_i s _
      simp only [setReg] at h
      by_cases hd : c = s.client
      · rw [if_pos hd] at h
        simp only [Registry.deregister, List.mem_filter] at h
        exact Or.inl (by rw [hd]; exact h.1)
      · rw [if_neg hd] at h; exact Or.inl h
    · exact Or.inl h
  | cancels j => exact Or.inl h
  | closes d =>
    simp only [Proc.act, Registry.drain, setReg] at h
    by_cases hd : c = d
    · rw [if_pos hd] at h; simp at h
    · rw [if_neg hd] at h; exact Or.inl h
  | cancelsAll => exact Or.inl h

theorem procInv_start : ProcInv Proc.start :=
  ⟨by simp [Proc.start], by simp [Proc.start], by simp [Proc.start]⟩

theorem ProcInv.act {p : Proc} (h : ProcInv p) (a : Act) : ProcInv (p.act a) := by
  constructor
  · intro i s' hs
    rcases act_stream_inv p a i s' hs with ⟨s, h1, h2, h3⟩ | ⟨c, rfl, _, rfl⟩
    · rw [h2, h3]
      exact Nat.lt_of_lt_of_le (h.fresh i s h1) (act_nextId p a s.client)
    · simp [Proc.act, Registry.register, setReg]
  · intro c id i hm
    rcases act_entry p a c id i hm with hm | ⟨rfl, rfl, rfl⟩
    · obtain ⟨s, h1, h2, h3⟩ := h.entry c id i hm
      obtain ⟨s', h4, h5, h6⟩ := act_stream p a i s h1
      exact ⟨s', h4, h5.trans h2, h6.trans h3⟩
    · exact ⟨⟨c, (p.regs c).nextId, false⟩, by simp [Proc.act, Registry.register], rfl, rfl⟩
  · intro i j s' t' hi hj hc hg
    rcases act_stream_inv p a i s' hi with ⟨s, h1, h2, h3⟩ | ⟨c, ha, rfl, rfl⟩
    · rcases act_stream_inv p a j t' hj with ⟨t, k1, k2, k3⟩ | ⟨c, ha, rfl, rfl⟩
      · exact h.apart i j s t h1 k1 (by rw [← h2, ← k2, hc]) (by rw [← h3, ← k3, hg])
      · have := h.fresh i s h1
        simp only at hc hg
        rw [← h2, hc, ← h3, hg] at this
        exact absurd this (Nat.lt_irrefl _)
    · rcases act_stream_inv p a j t' hj with ⟨t, k1, k2, k3⟩ | ⟨c', ha', rfl, rfl⟩
      · have := h.fresh j t k1
        simp only at hc hg
        rw [← k2, ← hc, ← k3, ← hg] at this
        exact absurd this (Nat.lt_irrefl _)
      · rfl

/-- What is known of an open stream: it has been cancelled exactly if something stopped it, and until its client is closed it
is registered. -/
structure OpenAt (p : Proc) (c i : Nat) (stopped : Prop) : Prop where
  inv : ProcInv p
  shown : ∃ s : Strm, p.streams[i]? = some s ∧ s.client = c ∧ (s.cancelled = true ↔ stopped) ∧
    ((s.guard, i) ∈ (p.regs c).active ∨ stopped)

theorem OpenAt.act {p : Proc} {c i : Nat} {st : Prop} (h : OpenAt p c i st) (a : Act) (ha : a ≠ .drops i) :
    OpenAt (p.act a) c i (st ∨ Stops c i a) := by
  refine ⟨h.inv.act a, ?_⟩
  obtain ⟨s, h1, h2, h3, h4⟩ := h.shown
  cases a with
  | opens d =>
    refine ⟨s, ?_, h2, ?_, ?_⟩
    · simp only [Proc.act, Registry.register]
      rw [List.getElem?_append_left (List.getElem?_eq_some_iff.mp h1).1]
      exact h1
    · rw [h3]
      exact ⟨Or.inl, fun hx => hx.resolve_right (fun hc => by cases hc)⟩
    · rcases h4 with h4 | h4
      · left
        simp only [Proc.act, Registry.register, setReg]
        by_cases hd : c = d
        · rw [if_pos hd]
          simp only [mem_put]
          right
          subst hd
          refine ⟨h4, ?_⟩
          have := h.inv.fresh i s h1
          rw [h2] at this
          exact Nat.ne_of_lt this
        · rw [if_neg hd]; exact h4
      · exact Or.inr (Or.inl h4)
  | drops j =>
    have hne : j ≠ i := fun hc => ha (by rw [hc])
    refine ⟨s, ?_, h2, ?_, ?_⟩
    · simp only [Proc.act]; split <;> exact h1
    · rw [h3]
      exact ⟨Or.inl, fun hx => hx.resolve_right (fun hc => by cases hc)⟩
    · rcases h4 with h4 | h4
      · left
        simp only [Proc.act]
        split
        · rename_i t ht
          simp only [setReg]
          by_cases hd : c = t.client
          · rw [if_pos hd]
            simp only [Registry.deregister, List.mem_filter]
            refine ⟨by rw [← hd]; exact h4, ?_⟩
            simp only [decide_not, Bool.not_eq_eq_eq_not, Bool.not_true, decide_eq_false_iff_not]
            intro hg
            exact hne (h.inv.apart i j s t h1 ht (by rw [h2, hd]) hg).symm
          · rw [if_neg hd]; exact h4
        · exact h4
      · exact Or.inr (Or.inl h4)
  | cancels j =>
    simp only [Proc.act, signal_get, h1, Option.map_some]
    by_cases hj : j = i
    · subst hj
      refine ⟨_, rfl, by simp [h2], by simp; exact Or.inr .self, Or.inr (Or.inr .self)⟩
    · refine ⟨s, by simp [hj], h2, ?_, ?_⟩
      · rw [h3]
        exact ⟨Or.inl, fun hx => hx.resolve_right (fun hc => by cases hc; exact hj rfl)⟩
      · exact h4.imp id Or.inl
  | closes d =>
    simp only [Proc.act, Registry.drain, signals_get, h1, Option.map_some]
    by_cases hd : c = d
    · subst hd
      refine ⟨_, rfl, by split <;> exact h2, ?_, Or.inr (Or.inr .close)⟩
      rcases h4 with h4 | h4
      · rw [if_pos (by simp only [List.mem_map]; exact ⟨_, h4, rfl⟩)]
        simp only [true_iff]
        exact Or.inr .close
      · split
        · simp only [true_iff]; exact Or.inl h4
        · rw [h3]; exact ⟨Or.inl, fun _ => h4⟩
    · have hn : i ∉ (p.regs d).active.map (·.2) := by
        intro hm
        simp only [List.mem_map] at hm
        obtain ⟨⟨id, i'⟩, hm, rfl⟩ := hm
        obtain ⟨t, k1, k2, _⟩ := h.inv.entry d id _ hm
        rw [h1] at k1
        cases k1
        exact hd (h2.symm.trans k2)
      rw [if_neg hn]
      refine ⟨s, rfl, h2, ?_, ?_⟩
      · rw [h3]
        exact ⟨Or.inl, fun hx => hx.resolve_right (fun hc => by cases hc; exact hd rfl)⟩
      · rcases h4 with h4 | h4
        · left; simp only [setReg, if_neg hd]; exact h4
        · exact Or.inr (Or.inl h4)
  | cancelsAll =>
    refine ⟨{ s with cancelled := true }, by simp [Proc.act, h1], h2, ?_, Or.inr (Or.inr .all)⟩
    simp only [true_iff]
    exact Or.inr .all

theorem OpenAt.run {c i : Nat} (as : List Act) : ∀ {p : Proc} {st : Prop}, OpenAt p c i st → .drops i ∉ as →
    OpenAt (p.run as) c i (st ∨ ∃ a ∈ as, Stops c i a) := by
  induction as with
  | nil =>
    intro p st h _
    have : (st ∨ ∃ a ∈ ([] : List Act), Stops c i a) = st := by simp
    rw [this]; exact h
  | cons a as ih =>
    intro p st h hn
    have h1 := ih (h.act a (fun hc => hn (by simp [hc]))) (fun hc => hn (by simp [hc]))
    have : ((st ∨ Stops c i a) ∨ ∃ x ∈ as, Stops c i x) = (st ∨ ∃ x ∈ a :: as, Stops c i x) := by
      simp [or_assoc]
    rw [this] at h1
    exact h1

theorem procInv_run (as : List Act) : ∀ {p : Proc}, ProcInv p → ProcInv (p.run as) := by
  induction as with
  | nil => intro p h; exact h
  | cons a as ih => intro p h; exact ih (h.act a)

/-- C60: consider any execution of a process with any number of clients, and a stream opened in it that is still held.  It has
been cancelled if and only if, since it was opened, it was itself cancelled, its client was closed (or dropped), or all
streams of the process were cancelled.  In particular `close` reaches every open stream of the client, whatever was opened
and dropped in between, and no stream of another client. -/
theorem C60_close (before after : List Act) (c : Nat) (i : Nat) (hi : i = (Proc.start.run before).streams.length)
    (ha : .drops i ∉ after) :
    ∃ s, (Proc.start.run (before ++ .opens c :: after)).streams[i]? = some s ∧ s.client = c ∧
      (s.cancelled = true ↔ ∃ a ∈ after, Stops c i a) := by
  have h0 := procInv_run before procInv_start
  have h1 : OpenAt ((Proc.start.run before).act (.opens c)) c i False := by
    subst hi
    refine ⟨h0.act _, ⟨c, ((Proc.start.run before).regs c).nextId, false⟩, ?_, rfl, by simp, Or.inl ?_⟩
    · simp [Proc.act, Registry.register]
    · simp [Proc.act, Registry.register, setReg, mem_put]
  have h2 := h1.run after ha
  have hr : Proc.start.run (before ++ .opens c :: after) = ((Proc.start.run before).act (.opens c)).run after := by
    simp [Proc.run, List.foldl_append]
  rw [hr]
  obtain ⟨s, k1, k2, k3, _⟩ := h2.shown
  exact ⟨s, k1, k2, by rw [k3]; simp⟩

/-- C60: nothing is kept of a stream that is no longer held: its entry is gone from the registry. -/
theorem C60_dropped (before after : List Act) (i : Nat) (hl : i < (Proc.start.run before).streams.length) (c id : Nat) :
    (id, i) ∉ ((Proc.start.run (before ++ .drops i :: after)).regs c).active := by
  have h0 := procInv_run before procInv_start
  have hr : Proc.start.run (before ++ .drops i :: after) = ((Proc.start.run before).act (.drops i)).run after := by
    simp [Proc.run, List.foldl_append]
  rw [hr]
  generalize Proc.start.run before = p at h0 hl
  have h1 : (id, i) ∉ ((p.act (.drops i)).regs c).active ∧ i < (p.act (.drops i)).streams.length := by
    have hs : p.streams[i]? = some p.streams[i] := List.getElem?_eq_getElem hl
    constructor
    · intro hm
      obtain ⟨s, k1, k2, k3⟩ := (h0.act (.drops i)).entry c id i hm
      simp only [Proc.act, hs] at hm k1
      cases k1
      simp only [setReg, k2, if_true, Registry.deregister, List.mem_filter, k3] at hm
      simp at hm
    · simp only [Proc.act, hs]; exact hl
  have : ∀ (as : List Act) (q : Proc), (id, i) ∉ (q.regs c).active ∧ i < q.streams.length →
      (id, i) ∉ ((q.run as).regs c).active := by
    intro as
    induction as with
    | nil => intro q h; exact h.1
    | cons a as ih =>
      intro q h
      refine ih (q.act a) ⟨?_, ?_⟩
      · intro hm
        rcases act_entry q a c id i hm with hm | ⟨_, _, h3⟩
        · exact h.1 hm
        · omega
      · obtain ⟨s', h4, _⟩ := act_stream q a i _ (List.getElem?_eq_getElem h.2)
        exact (List.getElem?_eq_some_iff.mp h4).1
  exact this after _ h1

/-- Two clients; the first stream of client 0 is dropped, client 0 is closed and opens another stream, client 1 goes on. -/
example : ((Proc.start.run [.opens 0, .opens 1, .opens 0, .drops 0, .closes 0, .opens 0]).streams.map (·.cancelled)) =
    [false, false, true, false] := by decide +kernel

example : ((Proc.start.run [.opens 0, .opens 1, .cancels 1, .cancelsAll, .opens 1]).streams.map (·.cancelled)) =
    [true, true, false] := by decide +kernel

end Uma.Props
