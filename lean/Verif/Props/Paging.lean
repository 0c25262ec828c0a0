import Verif.Props.Decide

/-!
# Reading in pages: C80

A client reads with a limit, and goes on after the last event it got, until it gets fewer events than it asked for.
Meanwhile events are appended.
-/

namespace Uma.Props
open Uma.Spec Uma.Db Uma.Page

/-! ## The claim -/

/-- Where to go on after an event at position `p`. -/
def goOn (backwards : Bool) (p : Nat) : Nat := if backwards then p - 1 else p + 1

/-- Pages of at most `n` events read one after the other, from `start` on, the first when the log is `log0`, the last when it is `log1`. -/
inductive Paging (q : Query) (backwards : Bool) (n : Nat) : Log → Option Nat → List (List SeqEvent) → Log → Prop
  | last {log : Log} {start : Option Nat} : (Spec.read log q start backwards (some n)).length < n →
      Paging q backwards n log start [Spec.read log q start backwards (some n)] log
  | more {log log' log1 : Log} {start : Option Nat} {e : SeqEvent} {rest : List (List SeqEvent)} :
      (Spec.read log q start backwards (some n)).getLast? = some e → log <+: log' →
      Paging q backwards n log' (some (goOn backwards e.position)) rest log1 →
      Paging q backwards n log start (Spec.read log q start backwards (some n) :: rest) log1

/-- The same in a history, from the time `t0` on until the time `t1`: each page is asked for after the page before has arrived. -/
inductive PagedIn (hist : History) (query : Option Query) (backwards : Bool) (n : Nat) : Nat → Option Nat → List (List SeqEvent) → Nat → Prop
  | last {t0 t1 i : Nat} {start : Option Nat} {l : List SeqEvent} {h : Option Nat} : (∀ t, (t, .opened i) ∈ hist → t0 ≤ t) →
      (t1, .saw i (.read query start backwards (some n)) (.events l h)) ∈ hist → l.length < n → PagedIn hist query backwards n t0 start [l] t1
  | more {t0 t1 t2 i : Nat} {start : Option Nat} {l : List SeqEvent} {h : Option Nat} {e : SeqEvent} {rest : List (List SeqEvent)} :
      (∀ t, (t, .opened i) ∈ hist → t0 ≤ t) → (t1, .saw i (.read query start backwards (some n)) (.events l h)) ∈ hist →
      l.getLast? = some e → PagedIn hist query backwards n t1 (some (goOn backwards e.position)) rest t2 →
      PagedIn hist query backwards n t0 start (l :: rest) t2

/-- The same by calls to the database, anything happening to it before each. -/
inductive PagedFrom (c : Conf) (env : Env) (query : Option Query) (backwards : Bool) (n : Nat) :
    PDb → Option Nat → List (List SeqEvent) → PDb → Prop
  | last {d0 d : PDb} {start : Option Nat} {l : List SeqEvent} {h : Option Nat} : Happens c env d0 d →
      Db.read (pageBackend c) env d query start backwards (some n) = .ok (l, h) → l.length < n → PagedFrom c env query backwards n d0 start [l] d
  | more {d0 d d1 : PDb} {start : Option Nat} {l : List SeqEvent} {h : Option Nat} {e : SeqEvent} {rest : List (List SeqEvent)} :
      Happens c env d0 d → Db.read (pageBackend c) env d query start backwards (some n) = .ok (l, h) → l.getLast? = some e →
      PagedFrom c env query backwards n d (some (goOn backwards e.position)) rest d1 → PagedFrom c env query backwards n d0 start (l :: rest) d1

/-! ## Logs -/

/-- The rest of a sorted list after an element. -/
theorem filter_after {L l r : List SeqEvent} {e : SeqEvent} (hs : L.Pairwise fun x y => x.position < y.position) (hL : L = l ++ r)
    (he : l.getLast? = some e) : L.filter (fun x => decide (e.position + 1 ≤ x.position)) = r := by
  obtain ⟨l0, rfl⟩ := List.getLast?_eq_some_iff.mp he
  subst hL
  have h1 : ∀ x ∈ l0 ++ [e], ¬ e.position + 1 ≤ x.position := by
    intro x hx
    rcases List.mem_append.mp hx with hx | hx
    · have := (List.pairwise_append.mp (List.pairwise_append.mp hs).1).2.2 x hx e (by simp)
      omega
    · simp at hx; subst hx; omega
  have h2 : ∀ x ∈ r, e.position + 1 ≤ x.position := fun x hx =>
    (List.pairwise_append.mp hs).2.2 e (by simp) x hx
  rw [List.filter_append, List.filter_eq_nil_iff.mpr (by simpa using h1), List.filter_eq_self.mpr (by simpa using h2)]
  rfl

/-- The same downwards. -/
theorem filter_before {L l r : List SeqEvent} {e : SeqEvent} (hs : L.Pairwise fun x y => y.position < x.position)
    (h1 : ∀ x ∈ L, 1 ≤ x.position) (hL : L = l ++ r)
    (he : l.getLast? = some e) : L.filter (fun x => decide (x.position ≤ e.position - 1)) = r := by
  obtain ⟨l0, rfl⟩ := List.getLast?_eq_some_iff.mp he
  subst hL
  have h0 := h1 e (by simp)
  have h1 : ∀ x ∈ l0 ++ [e], ¬ x.position ≤ e.position - 1 := by
    intro x hx
    rcases List.mem_append.mp hx with hx | hx
    · have := (List.pairwise_append.mp (List.pairwise_append.mp hs).1).2.2 x hx e (by simp)
      omega
    · simp at hx; subst hx; omega
  have h2 : ∀ x ∈ r, x.position ≤ e.position - 1 := fun x hx => by
    have := (List.pairwise_append.mp hs).2.2 e (by simp) x hx
    omega
  rw [List.filter_append, List.filter_eq_nil_iff.mpr (by simpa using h1), List.filter_eq_self.mpr (by simpa using h2)]
  rfl

theorem sequenced_prefix {log log' : Log} (h : log <+: log') : ∃ m, sequenced log' = sequenced log ++ m ∧ ∀ x ∈ m, log.length < x.position := by
  obtain ⟨l, rfl⟩ := h
  refine ⟨_, sequenced_append _ _, fun x hx => ?_⟩
  simp only [List.mem_map] at hx
  obtain ⟨y, hy, rfl⟩ := hx
  have := (mem_numberFrom.mp hy).1
  simp only [toSeq]; omega

theorem read_take (log : Log) (q : Query) (start : Option Nat) (b : Bool) (n : Nat) :
    Spec.read log q start b (some n) = (Spec.read log q start b none).take n := rfl

theorem mem_read_range {log : Log} {q : Query} {start : Option Nat} {b : Bool} {e : SeqEvent} (h : e ∈ Spec.read log q start b none) :
    e ∈ sequenced log ∧ InRange start b e.position := by
  unfold Spec.read applyLimit at h
  simp only at h
  split at h <;> simp only [List.mem_reverse, List.mem_filter, Bool.and_eq_true, decide_eq_true_eq] at h <;> exact ⟨h.1, h.2.1⟩

/-- Reading forwards: a page, and what comes after it, also in a longer log. -/
theorem read_forward {log log' : Log} (h : log <+: log') {q : Query} {start : Option Nat} {n : Nat} {e : SeqEvent}
    (he : (Spec.read log q start false (some n)).getLast? = some e) :
    Spec.read log' q start false none = Spec.read log q start false (some n) ++ Spec.read log' q (some (e.position + 1)) false none := by
  obtain ⟨m, hm, -⟩ := sequenced_prefix h
  have hin : InRange start false e.position := by
    have := List.mem_of_getLast? he
    rw [read_take] at this
    exact (mem_read_range (List.mem_of_mem_take this)).2
  have hpre : ∃ r, Spec.read log' q start false none = Spec.read log q start false (some n) ++ r := by
    refine ⟨(Spec.read log q start false none).drop n ++ m.filter fun e => decide (InRange start false e.position) && decide (Matches q e.event), ?_⟩
    rw [read_take, ← List.append_assoc, List.take_append_drop]
    simp [Spec.read, applyLimit, hm, List.filter_append]
  obtain ⟨r, hr⟩ := hpre
  rw [hr]
  congr 1
  have hs : (Spec.read log' q start false none).Pairwise fun x y => x.position < y.position := by
    simp only [Spec.read, applyLimit, Bool.false_eq_true, if_false]
    exact (sequenced_pairwise log').sublist List.filter_sublist
  rw [← filter_after hs hr he]
  simp only [Spec.read, applyLimit, Bool.false_eq_true, if_false, List.filter_filter]
  refine List.filter_congr fun x _ => ?_
  have : InRange start false x.position ∧ e.position + 1 ≤ x.position ↔ e.position + 1 ≤ x.position := by
    constructor
    · exact fun h => h.2
    · intro h
      refine ⟨?_, h⟩
      cases start with
      | none => trivial
      | some s =>
        simp only [InRange, Bool.false_eq_true, if_false] at hin ⊢
        omega
  rw [Bool.eq_iff_iff]
  have h2 : InRange (some (e.position + 1)) false x.position ↔ e.position + 1 ≤ x.position := by simp [InRange]
  simp only [Bool.and_eq_true, decide_eq_true_eq, h2]
  tauto

/-- Reading backwards from within the log: what is appended does not matter. -/
theorem read_within {log log' : Log} (h : log <+: log') {q : Query} {s : Nat} (hs : s ≤ log.length) :
    Spec.read log' q (some s) true none = Spec.read log q (some s) true none := by
  obtain ⟨m, hm, hlt⟩ := sequenced_prefix h
  simp only [Spec.read, applyLimit, if_true, hm, List.filter_append]
  rw [List.filter_eq_nil_iff (l := m) |>.mpr, List.append_nil]
  intro x hx
  have := hlt x hx
  simp [InRange]
  omega

theorem read_backward {log : Log} {q : Query} {start : Option Nat} {n : Nat} {e : SeqEvent}
    (he : (Spec.read log q start true (some n)).getLast? = some e) :
    Spec.read log q start true none = Spec.read log q start true (some n) ++ Spec.read log q (some (e.position - 1)) true none := by
  have hmem : e ∈ Spec.read log q start true none := by
    have := List.mem_of_getLast? he
    rw [read_take] at this
    exact List.mem_of_mem_take this
  have hin := (mem_read_range hmem).2
  have hr : Spec.read log q start true none = Spec.read log q start true (some n) ++ (Spec.read log q start true none).drop n := by
    rw [read_take, List.take_append_drop]
  have hpos : ∀ x ∈ sequenced log, 1 ≤ x.position := by
    intro x hx
    simp only [sequenced, List.mem_map] at hx
    obtain ⟨y, hy, rfl⟩ := hx
    exact (mem_numberFrom.mp hy).1
  have hs : (Spec.read log q start true none).Pairwise fun x y => y.position < x.position := by
    simp only [Spec.read, applyLimit, if_true, List.pairwise_reverse]
    exact (sequenced_pairwise log).sublist List.filter_sublist
  have h0 := hpos e (mem_read_range hmem).1
  conv_lhs => rw [hr]
  congr 1
  rw [← filter_before hs (fun x hx => hpos x (mem_read_range hx).1) hr he]
  simp only [Spec.read, applyLimit, if_true, List.filter_reverse, List.filter_filter]
  congr 1
  refine List.filter_congr fun x _ => ?_
  have : InRange start true x.position ∧ x.position ≤ e.position - 1 ↔ x.position ≤ e.position - 1 := by
    constructor
    · exact fun h => h.2
    · intro h
      refine ⟨?_, h⟩
      cases start with
      | none => trivial
      | some s =>
        simp only [InRange, if_true] at hin ⊢
        omega
  rw [Bool.eq_iff_iff]
  have h2 : InRange (some (e.position - 1)) true x.position ↔ x.position ≤ e.position - 1 := by simp [InRange]
  simp only [Bool.and_eq_true, decide_eq_true_eq, h2]
  tauto

theorem read_short {log : Log} {q : Query} {start : Option Nat} {b : Bool} {n : Nat} (h : (Spec.read log q start b (some n)).length < n) :
    Spec.read log q start b (some n) = Spec.read log q start b none := by
  rw [read_take] at h ⊢
  rw [List.length_take] at h
  exact List.take_of_length_le (by omega)

theorem Paging.mono {q : Query} {b : Bool} {n : Nat} {log0 log1 : Log} {start : Option Nat} {pages : List (List SeqEvent)}
    (h : Paging q b n log0 start pages log1) : log0 <+: log1 := by
  induction h with
  | last => exact List.prefix_refl _
  | more _ h _ ih => exact h.trans ih

theorem paging_forward {q : Query} {b : Bool} {n : Nat} {log0 log1 : Log} {start : Option Nat} {pages : List (List SeqEvent)}
    (h : Paging q b n log0 start pages log1) (hb : b = false) : pages.flatten = Spec.read log1 q start false none := by
  induction h with
  | last hlen => subst hb; simpa using read_short hlen
  | @more log log' log1 start e rest he h hrest ih =>
    subst hb
    rw [List.flatten_cons, ih, read_forward (h.trans hrest.mono) he]
    rfl

theorem paging_backward {q : Query} {b : Bool} {n : Nat} {log0 log1 : Log} {start : Option Nat} {pages : List (List SeqEvent)}
    (h : Paging q b n log0 start pages log1) (hb : b = true) : pages.flatten = Spec.read log0 q start true none := by
  induction h with
  | last hlen => subst hb; simpa using read_short hlen
  | @more log log' log1 start e rest he h hrest ih =>
    subst hb
    have hpos : e.position - 1 ≤ log.length := by
      have hmem : e ∈ Spec.read log q start true none := by
        have := List.mem_of_getLast? he
        rw [read_take] at this
        exact List.mem_of_mem_take this
      have := (mem_read_range hmem).1
      simp only [sequenced, List.mem_map] at this
      obtain ⟨y, hy, rfl⟩ := this
      have h1 : 1 ≤ y.1 ∧ log[y.1 - 1]? = some y.2 := mem_numberFrom.mp hy
      have h2 := List.getElem?_eq_some_iff.mp h1.2
      obtain ⟨h3, -⟩ := h2
      simp only [toSeq]; omega
    rw [List.flatten_cons, ih, read_backward he]
    congr 1
    exact read_within h hpos

/-! ## Histories -/

section
variable {valid : Record → Prop} [DecidablePred valid] {s : Spec.Db} {hist : History} {A : List Done} {τ : Nat → Nat}

theorem appendAll_prefix (s : Spec.Db) (reqs : List Request) : s.log <+: (appendAll valid s reqs).2.log := by
  obtain ⟨l, hl, -⟩ := appendAll_grows (valid := valid) reqs s
  exact ⟨l, hl.symm⟩

theorem stateAt_prefix (hA : A.Pairwise fun x y => x.time ≤ y.time) {t t' : Nat} (h : t ≤ t') :
    (stateAt valid s A t).log <+: (stateAt valid s A t').log := by
  have h1 := cut (hA.sublist (List.filter_sublist (p := fun x => decide (x.time ≤ t')))) t
  rw [List.filter_filter] at h1
  have h2 : (A.filter fun x => decide (x.time ≤ t) && decide (x.time ≤ t')) = A.filter fun x => decide (x.time ≤ t) := by
    refine List.filter_congr fun x _ => ?_
    rw [Bool.eq_iff_iff]
    simp only [Bool.and_eq_true, decide_eq_true_eq]
    omega
  rw [h2] at h1
  unfold stateAt
  rw [h1, List.map_append, appendAll_append]
  exact appendAll_prefix _ _

theorem pagedIn_paging (hl : Linear valid s hist A τ) {query : Option Query} {b : Bool} {n t0 t1 : Nat} {start : Option Nat}
    {pages : List (List SeqEvent)} (h : PagedIn hist query b n t0 start pages t1) :
    ∃ a z, t0 < a ∧ a ≤ z ∧ z < t1 ∧ Paging (query.getD ⟨[]⟩) b n (stateAt valid s A a).log start pages (stateAt valid s A z).log := by
  induction h with
  | @last t0 t1 i start l hd ho hs hlen =>
    obtain ⟨⟨t2, h1, h2⟩, h3, h4⟩ := hl.looks _ _ _ _ hs
    simp only [Look.on, Seen.events.injEq] at h4
    obtain ⟨rfl, -⟩ := h4
    exact ⟨τ i, τ i, Nat.lt_of_le_of_lt (ho _ h1) h2, Nat.le_refl _, h3, .last hlen⟩
  | @more t0 t1 t2 i start l hd e rest ho hs he hrest ih =>
    obtain ⟨⟨t3, h1, h2⟩, h3, h4⟩ := hl.looks _ _ _ _ hs
    simp only [Look.on, Seen.events.injEq] at h4
    obtain ⟨rfl, -⟩ := h4
    obtain ⟨a, z, k1, k2, k3, k4⟩ := ih
    exact ⟨τ i, z, Nat.lt_of_le_of_lt (ho _ h1) h2, by omega, k3, .more he (stateAt_prefix hl.sorted (by omega)) k4⟩

/-- C80 for histories: reading in pages gives what one read without a limit gives at some instant between the beginning and the end. -/
theorem C80_linear (hl : Linear valid s hist A τ) {query : Option Query} {b : Bool} {n t0 t1 : Nat} {start : Option Nat}
    {pages : List (List SeqEvent)} (h : PagedIn hist query b n t0 start pages t1) :
    ∃ t, t0 < t ∧ t < t1 ∧ pages.flatten = Spec.read (stateAt valid s A t).log (query.getD ⟨[]⟩) start b none := by
  obtain ⟨a, z, h1, h2, h3, h4⟩ := pagedIn_paging hl h
  cases b with
  | false => exact ⟨z, by omega, h3, paging_forward h4 rfl⟩
  | true => exact ⟨a, h1, by omega, paging_backward h4 rfl⟩

end

/-! ## The program -/

open Classical in
/-- C80 for the runs of the model, with crashes. -/
theorem C80_atomic {conf : Conf} {kw : Nat} {env : Env} (he : EnvOk env) (hc : ConfOk conf kw) (hH : ∀ t, Codec.NormalizedTo kw (env.H t))
    {d : PDb} {s : Spec.Db} (hd : LiveS conf hc env.H d s) {W : World} (hw : Worlds conf env (.init d) W) :
    ∃ A τ, Linear (Accepted conf.g.pageSize) s W.hist A τ ∧ ∀ query b n t0 start pages t1, PagedIn W.hist query b n t0 start pages t1 →
      ∃ t, t0 < t ∧ t < t1 ∧ pages.flatten = Spec.read (stateAt (Accepted conf.g.pageSize) s A t).log (query.getD ⟨[]⟩) start b none := by
  obtain ⟨A, τ, hl, -⟩ := C58_linearizable he hc hH hd hw
  exact ⟨A, τ, hl, fun _ _ _ _ _ _ _ h => C80_linear hl h⟩

open Classical in
/-- The same with the pipelined writer, under the conditions of `C64_linearizable_partial`. -/
theorem C80_atomic_pipelined {conf : Conf} {kw : Nat} {env : Env} (hg : conf.g.pageSize = defaultPageSize) (he : EnvOk env)
    (hc : ConfOk conf kw) (hH : ∀ t, Codec.NormalizedTo kw (env.H t)) {d : PDb} {s : Spec.Db} (hd : LiveS conf hc env.H d s) {st : Pipe}
    (hst : Pipe.start conf d = .ok st) {W : PWorld} (hw : PWorlds conf env Careful (.init st) W) :
    ∃ A τ, Linear (Accepted conf.g.pageSize) s W.hist A τ ∧ ∀ query b n t0 start pages t1, PagedIn W.hist query b n t0 start pages t1 →
      ∃ t, t0 < t ∧ t < t1 ∧ pages.flatten = Spec.read (stateAt (Accepted conf.g.pageSize) s A t).log (query.getD ⟨[]⟩) start b none := by
  obtain ⟨A, τ, hl, -⟩ := C64_linearizable_partial hg he hc hH hd hst hw
  exact ⟨A, τ, hl, fun _ _ _ _ _ _ _ h => C80_linear hl h⟩

theorem pagedFrom_paging {c : Conf} {kw : Nat} {env : Env} (he : EnvOk env) (hc : ConfOk c kw) (hH : ∀ t, Codec.NormalizedTo kw (env.H t))
    {query : Option Query} {b : Bool} {n : Nat} {d0 d1 : PDb} {start : Option Nat} {pages : List (List SeqEvent)}
    (h : PagedFrom c env query b n d0 start pages d1) {s0 : Spec.Db} (hd : Live c hc env.H d0 s0) :
    ∃ d s s1, Happens c env d0 d ∧ Live c hc env.H d s ∧ Live c hc env.H d1 s1 ∧ s0.log <+: s.log ∧
      Paging (query.getD ⟨[]⟩) b n s.log start pages s1.log := by
  induction h generalizing s0 with
  | @last d0 d start l hh h hr hlen =>
    obtain ⟨s, h1, h2⟩ := happens_grown he hc hH h hd
    obtain ⟨_, h3⟩ := (shows he hc hH h1).reads query start b (some n)
    rw [hr] at h3
    cases h3
    exact ⟨d, s, s, h, h1, h1, h2.1, .last hlen⟩
  | @more d0 d d1 start l hh e rest h hr hl hrest ih =>
    obtain ⟨s, h1, h2⟩ := happens_grown he hc hH h hd
    obtain ⟨_, h3⟩ := (shows he hc hH h1).reads query start b (some n)
    rw [hr] at h3
    cases h3
    obtain ⟨d', s', s1, k1, k2, k3, k4, k5⟩ := ih h1
    exact ⟨d, s, s1, h, h1, k3, h2.1, .more hl k4 k5⟩

/-- C80 for calls to the database: reading in pages gives what one read without a limit gives, forwards at the end, backwards at the beginning,
whatever happens to the database in between. -/
theorem C80_calls {c : Conf} {kw : Nat} {env : Env} (he : EnvOk env) (hc : ConfOk c kw) (hH : ∀ t, Codec.NormalizedTo kw (env.H t))
    {query : Option Query} {n : Nat} {d0 d1 : PDb} {start : Option Nat} {pages : List (List SeqEvent)} {s0 : Spec.Db} (hd : Live c hc env.H d0 s0) :
    (PagedFrom c env query false n d0 start pages d1 → ∃ h, Db.read (pageBackend c) env d1 query start false none = .ok (pages.flatten, h)) ∧
    (PagedFrom c env query true n d0 start pages d1 →
      ∃ d h, Happens c env d0 d ∧ Db.read (pageBackend c) env d query start true none = .ok (pages.flatten, h)) := by
  refine ⟨fun h => ?_, fun h => ?_⟩
  · obtain ⟨d, s, s1, h1, h2, h3, h4, h5⟩ := pagedFrom_paging he hc hH h hd
    rw [paging_forward h5 rfl]
    exact (shows he hc hH h3).reads query start false none
  · obtain ⟨d, s, s1, h1, h2, h3, h4, h5⟩ := pagedFrom_paging he hc hH h hd
    rw [paging_backward h5 rfl]
    obtain ⟨hh, h6⟩ := (shows he hc hH h2).reads query start true none
    exact ⟨d, hh, h1, h6⟩

section Examples

def exLibrary : Spec.Db := ⟨[⟨exEv 1, none⟩, ⟨exEv 2, none⟩, ⟨exEv 3, none⟩], fun _ => none⟩

/-- Two clients read in pages of two, one forwards, one backwards; after the first page of each another event is appended. -/
def exLibraryHist : History :=
  [(1, .opened 1), (2, .opened 4), (5, .saw 1 (.read (some exQ) none false (some 2)) (.events [⟨1, exEv 1, none⟩, ⟨2, exEv 2, none⟩] (some 2))),
   (6, .saw 4 (.read none none true (some 2)) (.events [⟨3, exEv 3, none⟩, ⟨2, exEv 2, none⟩] (some 2))),
   (7, .asked 1 ⟨[exEv 4], none, none⟩), (9, .answered 1 (.ok 4)), (10, .opened 2),
   (12, .saw 2 (.read (some exQ) (some 3) false (some 2)) (.events [⟨3, exEv 3, none⟩, ⟨4, exEv 4, none⟩] (some 4))), (13, .opened 5),
   (15, .saw 5 (.read none (some 1) true (some 2)) (.events [⟨1, exEv 1, none⟩] (some 1))), (16, .opened 3),
   (18, .saw 3 (.read (some exQ) (some 5) false (some 2)) (.events [] none))]

def exLibraryDone : List Done := [⟨8, 1, ⟨[exEv 4], none, none⟩, .ok 4⟩]

theorem exLibrary_linear : Linear (fun _ => True) exLibrary exLibraryHist exLibraryDone
    (fun i => if i = 1 then 3 else if i = 4 then 4 else if i = 2 then 11 else if i = 5 then 14 else 17) where
  clock := by simp [exLibraryHist]
  sorted := by simp [exLibraryDone]
  once := by simp [exLibraryDone]
  legal := by
    have h : (appendAll (fun _ => True) exLibrary (exLibraryDone.map (·.req))).1 = [.ok 4] := by decide +kernel
    rw [h]
    exact ⟨rfl, trivial⟩
  asked := by
    intro x hx
    simp only [exLibraryDone, List.mem_cons, List.not_mem_nil, or_false] at hx
    subst hx
    exact ⟨7, by simp [exLibraryHist], by decide⟩
  answered := by
    intro t id a h
    simp [exLibraryHist] at h
    obtain ⟨rfl, rfl, rfl⟩ := h
    exact .inl ⟨⟨8, 1, ⟨[exEv 4], none, none⟩, .ok 4⟩, by simp [exLibraryDone], rfl, rfl, by decide⟩
  onceAnswered := by
    intro t t' id a a' h h'
    simp [exLibraryHist] at h h'
    omega
  askedFirst := by
    intro t id a h
    simp [exLibraryHist] at h
    obtain ⟨rfl, rfl, rfl⟩ := h
    exact ⟨7, ⟨[exEv 4], none, none⟩, by simp [exLibraryHist], by decide⟩
  looks := by
    intro t i l a h
    simp [exLibraryHist] at h
    rcases h with ⟨rfl, rfl, rfl, rfl⟩ | ⟨rfl, rfl, rfl, rfl⟩ | ⟨rfl, rfl, rfl, rfl⟩ | ⟨rfl, rfl, rfl, rfl⟩ | ⟨rfl, rfl, rfl, rfl⟩
    · refine ⟨⟨1, by simp [exLibraryHist], by decide⟩, by decide, ?_⟩
      have h : Spec.read (stateAt (fun _ => True) exLibrary exLibraryDone 3).log exQ none false (some 2) = [⟨1, exEv 1, none⟩, ⟨2, exEv 2, none⟩] := by decide +kernel
      exact congrArg (fun l => Seen.events l (l.getLast?.map (·.position))) h.symm
    · refine ⟨⟨2, by simp [exLibraryHist], by decide⟩, by decide, ?_⟩
      have h : Spec.read (stateAt (fun _ => True) exLibrary exLibraryDone 4).log ⟨[]⟩ none true (some 2) = [⟨3, exEv 3, none⟩, ⟨2, exEv 2, none⟩] := by decide +kernel
      exact congrArg (fun l => Seen.events l (l.getLast?.map (·.position))) h.symm
    · refine ⟨⟨10, by simp [exLibraryHist], by decide⟩, by decide, ?_⟩
      have h : Spec.read (stateAt (fun _ => True) exLibrary exLibraryDone 11).log exQ (some 3) false (some 2) = [⟨3, exEv 3, none⟩, ⟨4, exEv 4, none⟩] := by decide +kernel
      exact congrArg (fun l => Seen.events l (l.getLast?.map (·.position))) h.symm
    · refine ⟨⟨13, by simp [exLibraryHist], by decide⟩, by decide, ?_⟩
      have h : Spec.read (stateAt (fun _ => True) exLibrary exLibraryDone 14).log ⟨[]⟩ (some 1) true (some 2) = [⟨1, exEv 1, none⟩] := by decide +kernel
      exact congrArg (fun l => Seen.events l (l.getLast?.map (·.position))) h.symm
    · refine ⟨⟨16, by simp [exLibraryHist], by decide⟩, by decide, ?_⟩
      have h : Spec.read (stateAt (fun _ => True) exLibrary exLibraryDone 17).log exQ (some 5) false (some 2) = [] := by decide +kernel
      exact congrArg (fun l => Seen.events l (l.getLast?.map (·.position))) h.symm
  heads := by
    intro t h hh
    simp [exLibraryHist] at hh

theorem exLibrary_forwards : PagedIn exLibraryHist (some exQ) false 2 0 none
    [[⟨1, exEv 1, none⟩, ⟨2, exEv 2, none⟩], [⟨3, exEv 3, none⟩, ⟨4, exEv 4, none⟩], []] 18 := by
  refine .more (t1 := 5) (i := 1) (h := some 2) (e := ⟨2, exEv 2, none⟩) ?_ (by simp [exLibraryHist]) rfl ?_
  · intro t h; omega
  refine .more (t1 := 12) (i := 2) (h := some 4) (e := ⟨4, exEv 4, none⟩) ?_ (by simp [exLibraryHist, goOn]) rfl ?_
  · intro t h; simp [exLibraryHist] at h; omega
  refine .last (i := 3) (h := none) ?_ (by simp [exLibraryHist, goOn]) (by simp)
  intro t h; simp [exLibraryHist] at h; omega

theorem exLibrary_backwards : PagedIn exLibraryHist none true 2 0 none
    [[⟨3, exEv 3, none⟩, ⟨2, exEv 2, none⟩], [⟨1, exEv 1, none⟩]] 15 := by
  refine .more (t1 := 6) (i := 4) (h := some 2) (e := ⟨2, exEv 2, none⟩) ?_ (by simp [exLibraryHist]) rfl ?_
  · intro t h; omega
  refine .last (i := 5) (h := some 1) ?_ (by simp [exLibraryHist, goOn]) (by simp)
  intro t h; simp [exLibraryHist] at h; omega

example : ∃ t, 0 < t ∧ t < 18 ∧ [⟨1, exEv 1, none⟩, ⟨2, exEv 2, none⟩, ⟨3, exEv 3, none⟩, ⟨4, exEv 4, none⟩] =
    Spec.read (stateAt (fun _ => True) exLibrary exLibraryDone t).log exQ none false none := C80_linear exLibrary_linear exLibrary_forwards

example : ∃ t, 0 < t ∧ t < 15 ∧ [⟨3, exEv 3, none⟩, ⟨2, exEv 2, none⟩, ⟨1, exEv 1, none⟩] =
    Spec.read (stateAt (fun _ => True) exLibrary exLibraryDone t).log ⟨[]⟩ none true none := C80_linear exLibrary_linear exLibrary_backwards

/-- Forwards the events appended in between are there, backwards they are not. -/
example : Spec.read (stateAt (fun _ => True) exLibrary exLibraryDone 17).log exQ none false none =
      [⟨1, exEv 1, none⟩, ⟨2, exEv 2, none⟩, ⟨3, exEv 3, none⟩, ⟨4, exEv 4, none⟩] ∧
    Spec.read (stateAt (fun _ => True) exLibrary exLibraryDone 4).log ⟨[]⟩ none true none =
      [⟨3, exEv 3, none⟩, ⟨2, exEv 2, none⟩, ⟨1, exEv 1, none⟩] := by decide +kernel

/-- Going on at the last event instead of after it repeats it. -/
example : Spec.read exLibrary.log exQ (some 2) false (some 2) = [⟨2, exEv 2, none⟩, ⟨3, exEv 3, none⟩] := by decide +kernel

/-- A database to which `exReq` is appended, then read in pages of one event. -/
example : ∃ (d0 d1 : PDb), Live exConf exConf_ok exConstEnv.H d0 Spec.Db.empty ∧
    PagedFrom exConf exConstEnv none false 1 d0 none [[⟨1, exEv 1, some ⟨"up", 9⟩⟩], [⟨2, exEv 2, some ⟨"up", 9⟩⟩], []] d1 ∧
    ∃ h, Db.read (pageBackend exConf) exConstEnv d1 none none false none =
      .ok ([⟨1, exEv 1, some ⟨"up", 9⟩⟩, ⟨2, exEv 2, some ⟨"up", 9⟩⟩], h) := by
  obtain ⟨d, d', hd, ha, hap, hd'⟩ := exStored
  have hh : Happens exConf exConstEnv d d' := by
    have := Happens.append (c := exConf) (env := exConstEnv) exReq exIO (.nothing d) ha
    rwa [hap] at this
  have hr := (shows exEnvOk exConf_ok exConstEnv_width hd').reads none
  obtain ⟨h1, r1⟩ := hr none false (some 1)
  obtain ⟨h2, r2⟩ := hr (some 2) false (some 1)
  obtain ⟨h3, r3⟩ := hr (some 3) false (some 1)
  rw [show Spec.read exAfter.log (Option.getD none ⟨[]⟩) none false (some 1) = [⟨1, exEv 1, some ⟨"up", 9⟩⟩] by decide +kernel] at r1
  rw [show Spec.read exAfter.log (Option.getD none ⟨[]⟩) (some 2) false (some 1) = [⟨2, exEv 2, some ⟨"up", 9⟩⟩] by decide +kernel] at r2
  rw [show Spec.read exAfter.log (Option.getD none ⟨[]⟩) (some 3) false (some 1) = [] by decide +kernel] at r3
  have hp : PagedFrom exConf exConstEnv none false 1 d none [[⟨1, exEv 1, some ⟨"up", 9⟩⟩], [⟨2, exEv 2, some ⟨"up", 9⟩⟩], []] d' :=
    .more hh r1 rfl (.more (.nothing _) r2 rfl (.last (.nothing _) r3 (by simp)))
  exact ⟨d, d', hd, hp, (C80_calls exEnvOk exConf_ok exConstEnv_width hd).1 hp⟩

end Examples

end Uma.Props
