import Verif.Server.Start
import Verif.Props.Share
import Verif.Props.Handler

/-!
# C73: starting and stopping the server
-/

namespace Uma.Props
open Uma.Server Uma.Page Uma.Mvcc Uma.Db Uma.Codec

/-! ## The limit of open files -/

/-- C73: the limit of open files.  The hard limit is not touched, the soft limit is never lowered and never put above the hard one, and
nothing is set that the system refused. -/
theorem C73_limit (reads : Bool) (accepts : FileLimit → Bool) (l : FileLimit) :
    (raiseLimit reads accepts l).2.hard = l.hard ∧ l.soft ≤ (raiseLimit reads accepts l).2.soft ∧
      (l.soft ≤ l.hard → (raiseLimit reads accepts l).2.soft ≤ l.hard) ∧
      ((raiseLimit reads accepts l).2 ≠ l → accepts (raiseLimit reads accepts l).2 = true) := by
  have loop : ∀ ts b, (∀ t ∈ ts, t ≤ l.hard) → (tryTargets accepts l ts b).2.hard = l.hard ∧ l.soft ≤ (tryTargets accepts l ts b).2.soft ∧
      (l.soft ≤ l.hard → (tryTargets accepts l ts b).2.soft ≤ l.hard) ∧
      ((tryTargets accepts l ts b).2 ≠ l → accepts (tryTargets accepts l ts b).2 = true) := by
    intro ts
    induction ts with
    | nil => intro b _; simp [tryTargets]
    | cons t ts ih =>
      intro b ht
      unfold tryTargets
      split
      · exact ih b fun x hx => ht x (by simp [hx])
      · split
        · rename_i h1 h2
          have h3 : l.soft ≤ t := by omega
          exact ⟨rfl, h3, fun _ => ht t (by simp), fun _ => h2⟩
        · exact ih true fun x hx => ht x (by simp [hx])
  unfold raiseLimit
  split
  · simp
  · split
    · simp
    · refine loop _ _ fun t ht => ?_
      unfold limitTargets at ht
      split at ht
      · rename_i h
        rw [h]
        have h64 : 1048576 ≤ unlimited := by decide
        have h65 : 65536 ≤ unlimited := by decide
        simp only [List.mem_cons, List.not_mem_nil, or_false] at ht
        rcases ht with rfl | rfl
        · exact h64
        · exact h65
      · simp only [List.mem_cons, List.not_mem_nil, or_false] at ht
        exact Nat.le_of_eq ht

/-- C73: with a hard limit, the soft limit becomes the hard one if it is lower and the system allows it, and the line printed is true. -/
theorem C73_limit_hard (accepts : FileLimit → Bool) (l : FileLimit) (h : l.hard ≠ 2 ^ 64 - 1) :
    (raiseLimit true accepts l).2.soft = (if l.soft < l.hard ∧ accepts ⟨l.hard, l.hard⟩ = true then l.hard else l.soft) ∧
      ((raiseLimit true accepts l).1 = .atHard ↔ l.hard ≤ l.soft) ∧
      (∀ t, (raiseLimit true accepts l).1 = .raised t ↔ t = l.hard ∧ l.soft < l.hard ∧ accepts ⟨l.hard, l.hard⟩ = true) ∧
      ((raiseLimit true accepts l).1 = .refused ↔ l.soft < l.hard ∧ accepts ⟨l.hard, l.hard⟩ = false) := by
  have hu : l.hard ≠ unlimited := h
  by_cases h1 : l.hard ≤ l.soft
  · simp [raiseLimit, hu, h1, Nat.not_lt.mpr h1]
  · have h2 : l.soft < l.hard := by omega
    cases ha : accepts ⟨l.hard, l.hard⟩ <;> simp [raiseLimit, limitTargets, tryTargets, hu, h1, h2, ha, eq_comm]

/-- C73: without a hard limit 1048576 is tried, then 65536, each only if higher than what there is. -/
theorem C73_limit_soft (accepts : FileLimit → Bool) (soft : Nat) :
    (raiseLimit true accepts ⟨soft, 2 ^ 64 - 1⟩).2.soft =
        (if soft < 2 ^ 20 ∧ accepts ⟨2 ^ 20, 2 ^ 64 - 1⟩ = true then 2 ^ 20
          else if soft < 2 ^ 16 ∧ accepts ⟨2 ^ 16, 2 ^ 64 - 1⟩ = true then 2 ^ 16 else soft) ∧
      ((raiseLimit true accepts ⟨soft, 2 ^ 64 - 1⟩).1 = .enough ↔ 2 ^ 20 ≤ soft) ∧
      ((raiseLimit true accepts ⟨soft, 2 ^ 64 - 1⟩).1 = .refused ↔
        soft < 2 ^ 20 ∧ accepts ⟨2 ^ 20, 2 ^ 64 - 1⟩ = false ∧ (soft < 2 ^ 16 → accepts ⟨2 ^ 16, 2 ^ 64 - 1⟩ = false)) ∧
      (∀ t, (raiseLimit true accepts ⟨soft, 2 ^ 64 - 1⟩).1 = .raised t → (raiseLimit true accepts ⟨soft, 2 ^ 64 - 1⟩).2.soft = t ∧ soft < t) := by
  have hu : (2 ^ 64 - 1 : Nat) = unlimited := rfl
  rw [hu]
  simp only [raiseLimit, limitTargets, tryTargets, Bool.not_true, Bool.false_eq_true, if_false, ne_eq, not_true, false_and, if_true,
    Nat.reducePow]
  by_cases h1 : 1048576 ≤ soft
  · simp [h1, show 65536 ≤ soft by omega, show ¬ soft < 1048576 by omega, show ¬ soft < 65536 by omega]
  · by_cases h2 : 65536 ≤ soft
    · cases ha : accepts ⟨1048576, unlimited⟩ <;> simp [h1, h2, show soft < 1048576 by omega, show ¬ soft < 65536 by omega]
    · cases ha : accepts ⟨1048576, unlimited⟩ <;> cases hb : accepts ⟨65536, unlimited⟩ <;>
        simp [h1, h2, ha, hb, show soft < 1048576 by omega, show soft < 65536 by omega]

/-- C73: if the limit cannot be read nothing is done. -/
theorem C73_limit_unread (accepts : FileLimit → Bool) (l : FileLimit) : raiseLimit false accepts l = (.unread, l) := rfl

example : raiseLimit true (fun _ => true) ⟨1024, 524288⟩ = (.raised 524288, ⟨524288, 524288⟩) ∧
    raiseLimit true (fun l => l.soft < 100000) ⟨256, 2 ^ 64 - 1⟩ = (.raised 65536, ⟨65536, 2 ^ 64 - 1⟩) ∧
    raiseLimit true (fun _ => false) ⟨256, 2 ^ 64 - 1⟩ = (.refused, ⟨256, 2 ^ 64 - 1⟩) ∧
    raiseLimit true (fun _ => true) ⟨70000, 70000⟩ = (.atHard, ⟨70000, 70000⟩) ∧
    raiseLimit true (fun _ => true) ⟨2000000, 2 ^ 64 - 1⟩ = (.enough, ⟨2000000, 2 ^ 64 - 1⟩) := by decide +kernel

/-! ## Starting -/

/-- No server runs in the process. -/
structure Idle (s : Site) : Prop where
  listening : s.listening = none
  locked : s.locked = false
  db : s.db = none
  head : s.head = none
  health : ∀ n, s.health n = none
  serving : s.serving = false
  stop : s.stop = false

theorem off_idle (l : FileLimit) (f : Option File) : Idle (.off l f) := ⟨rfl, rfl, rfl, rfl, fun _ => rfl, rfl, rfl⟩

theorem drop_idle (s : Site) : Idle s.drop := ⟨rfl, rfl, rfl, rfl, fun _ => rfl, rfl, rfl⟩

/-- What a client may rely on when its calls are taken. -/
structure Ready (S : Setting) (s : Site) : Prop where
  addr : ∃ a, S.addr = some a ∧ s.listening = some a
  locked : s.locked = true
  db : ∃ d, s.db = some d ∧ ∃ h, initialHead d = .ok h ∧ s.head = some h
  permits : ∃ n, s.permits = some n ∧ 1 ≤ n
  health : s.health "" = some true ∧ s.health "umadb.v1.DCB" = some true
  stop : s.stop = false

theorem raise_idle {S : Setting} {s : Site} (h : Idle s) : Idle (s.raise S) := by
  unfold Site.raise
  split
  · exact h
  · exact ⟨h.listening, h.locked, h.db, h.head, h.health, h.serving, h.stop⟩

theorem raise_file (S : Setting) (s : Site) : (s.raise S).file = s.file := by
  unfold Site.raise
  split <;> rfl

theorem limit_pos (var : Option (List Char)) (cores : Option Nat) : 1 ≤ readersLimit var cores := by
  unfold readersLimit
  split
  · rename_i n h
    have := Option.filter_eq_some_iff.mp h
    exact Nat.succ_le_of_lt (by simpa using this.2)
  · omega

/-- C73: at any moment of the start, calls are taken only by a server that listens on the address asked for, holds the lock of the file, has
the database open, has announced its head, and has permits for readers; and no client is told SERVING before.  At the end calls are taken if
the start reports no error; if it reports one, nothing is left: no lock, no database, no listener. -/
theorem C73_ready {S : Setting} {s : Site} (hs : Idle s) :
    (∀ t ∈ (startServer S s).1, t.serving = true → Ready S t) ∧
      (∀ t ∈ (startServer S s).1, ∀ n, t.asked n = some true → t.serving = true ∧ Ready S t) ∧
      (∃ t, (startServer S s).1.getLast? = some t ∧ ((startServer S s).2 = .ok () → t.serving = true) ∧
        (∀ e, (startServer S s).2 = .error e → Idle t)) := by
  have key : (∀ t ∈ (startServer S s).1, t.serving = true → Ready S t) ∧
      (∃ t, (startServer S s).1.getLast? = some t ∧ ((startServer S s).2 = .ok () → t.serving = true) ∧
        (∀ e, (startServer S s).2 = .error e → Idle t)) := by
    have h1 := raise_idle (S := S) hs
    unfold startServer
    dsimp only
    generalize s.raise S = s1 at *
    have q0 := hs.serving
    have q1 := h1.serving
    split
    · refine ⟨fun t ht => ?_, s1, rfl, fun e => by (cases e), fun _ _ => h1⟩
      simp only [List.mem_cons, List.not_mem_nil, or_false] at ht
      rcases ht with rfl | rfl <;> simp_all
    rename_i a ha
    split
    · refine ⟨fun t ht => ?_, s1, rfl, fun e => by (cases e), fun _ _ => h1⟩
      simp only [List.mem_cons, List.not_mem_nil, or_false] at ht
      rcases ht with rfl | rfl <;> simp_all
    split
    · refine ⟨fun t ht => ?_, _, rfl, fun e => by (cases e), fun _ _ => ⟨rfl, rfl, rfl, rfl, fun _ => rfl, rfl, rfl⟩⟩
      simp only [List.mem_cons, List.not_mem_nil, or_false] at ht
      rcases ht with rfl | rfl | rfl | rfl <;> simp_all [Site.drop, Site.off]
    rename_i d f hd
    split
    · refine ⟨fun t ht => ?_, _, rfl, fun e => by (cases e), fun _ _ => drop_idle _⟩
      simp only [List.mem_cons, List.not_mem_nil, or_false] at ht
      rcases ht with rfl | rfl | rfl | rfl | rfl <;> simp_all [Site.drop, Site.off]
    rename_i h hh
    split
    · refine ⟨fun t ht => ?_, _, rfl, fun e => by (cases e), fun _ _ => drop_idle _⟩
      simp only [List.mem_cons, List.not_mem_nil, or_false] at ht
      rcases ht with rfl | rfl | rfl | rfl | rfl | rfl <;> simp_all [Site.drop, Site.off]
    rename_i n hn
    have hn' : n = readersLimit S.threads S.cores := by
      unfold newSemaphore at hn
      split at hn
      · cases hn
      · cases hn; rfl
    unfold serveFrom
    dsimp only
    split
    · refine ⟨fun t ht => ?_, _, rfl, fun e => by (cases e), fun _ _ => drop_idle _⟩
      simp only [List.cons_append, List.nil_append, List.mem_cons, List.not_mem_nil, or_false] at ht
      rcases ht with rfl | rfl | rfl | rfl | rfl | rfl | rfl | rfl | rfl | rfl | rfl <;> simp_all [Site.drop, Site.off, Site.setHealth]
    · refine ⟨fun t ht => ?_, _, rfl, fun _ => rfl, fun _ e => by (cases e)⟩
      simp only [List.cons_append, List.nil_append, List.mem_cons, List.not_mem_nil, or_false] at ht
      rcases ht with rfl | rfl | rfl | rfl | rfl | rfl | rfl | rfl | rfl | rfl | rfl
      all_goals first
        | (intro hst; exfalso; simp_all [Site.drop, Site.off, Site.setHealth]; done)
        | skip
      intro _
      exact ⟨⟨a, ha, rfl⟩, rfl, ⟨d, rfl, h, hh, rfl⟩, ⟨n, rfl, hn' ▸ limit_pos _ _⟩, by simp [Site.setHealth, serviceName], h1.stop⟩
  refine ⟨key.1, fun t ht n hn => ?_, key.2⟩
  unfold Site.asked at hn
  split at hn
  · exact ⟨‹_›, key.1 t ht ‹_›⟩
  · cases hn

/-- C73: if the address is no address, or cannot be bound, nothing has been done to the database: no file is created, opened or locked. -/
theorem C73_address {S : Setting} {s : Site} (hs : Idle s) (h : S.addr = none ∨ S.binds = false) :
    (∀ t ∈ (startServer S s).1, t.file = s.file ∧ Idle t) ∧
      ((startServer S s).2 = .error .address ∨ ∃ m, (startServer S s).2 = .error (.failed (.initialization m))) := by
  have h1 := raise_idle (S := S) hs
  have h2 := raise_file S s
  unfold startServer
  dsimp only
  generalize s.raise S = s1 at *
  split
  · refine ⟨fun t ht => ?_, .inl rfl⟩
    simp only [List.mem_cons, List.not_mem_nil, or_false] at ht
    rcases ht with rfl | rfl
    · exact ⟨rfl, hs⟩
    · exact ⟨h2, h1⟩
  rename_i a ha
  rcases h with h | h
  · rw [h] at ha; cases ha
  rw [h]
  refine ⟨fun t ht => ?_, .inr ⟨_, rfl⟩⟩
  simp only [Bool.not_false, if_true, List.mem_cons, List.not_mem_nil, or_false] at ht
  rcases ht with rfl | rfl
  · exact ⟨rfl, hs⟩
  · exact ⟨h2, h1⟩

/-- C73: while another process has the database, a start fails and leaves the file as it is. -/
theorem C73_taken {S : Setting} {s : Site} {f : File} (hf : s.file = some f) (ht : S.taken = true) :
    (∀ t ∈ (startServer S s).1, t.file = some f) ∧ ∃ e, (startServer S s).2 = .error e := by
  have h2 := raise_file S s
  have ho : openAt S s.file = (.error (.initialization "Database file is already locked"), f) := by
    unfold openAt
    rw [if_pos ht, hf]
    rfl
  unfold startServer
  dsimp only
  rw [ho]
  generalize s.raise S = s1 at *
  split
  · refine ⟨fun t ht => ?_, _, rfl⟩
    simp only [List.mem_cons, List.not_mem_nil, or_false] at ht
    rcases ht with rfl | rfl <;> simp_all
  split
  · refine ⟨fun t ht => ?_, _, rfl⟩
    simp only [List.mem_cons, List.not_mem_nil, or_false] at ht
    rcases ht with rfl | rfl <;> simp_all
  refine ⟨fun t ht => ?_, _, rfl⟩
  simp only [List.mem_cons, List.not_mem_nil, or_false] at ht
  rcases ht with rfl | rfl | rfl | rfl <;> simp_all

/-- The surroundings are as they should be: address, lock, number of threads, TLS material. -/
def InOrder (S : Setting) (a : Nat) : Prop :=
  S.addr = some a ∧ S.binds = true ∧ S.taken = false ∧ readersLimit S.threads S.cores < 2 ^ 61 ∧ S.tls ≠ some false

variable {S : Setting} {s : Site}

/-- A start with a file that can be opened. -/
theorem start_opens {H : String → TagHash} {hc : ConfOk S.conf 16} {a : Nat} (hS : InOrder S a) {d : PDb} {f : File} {db : Spec.Db}
    (ho : openAt S s.file = (.ok d, f)) (hd : Live S.conf hc H d db) :
    ∃ t, (startServer S s).2 = .ok () ∧ (startServer S s).1.getLast? = some t ∧ t.serving = true ∧ t.file = some f ∧ t.db = some d ∧
      t.head = some (Spec.head db.log) ∧ t.printed = some db.log.length := by
  obtain ⟨h1, h2, h3, h4, h5⟩ := hS
  obtain ⟨k1, k2⟩ := C11_handler_head (env := ⟨H, id⟩) hd
  have hp : ((Except.ok (Spec.head db.log) : Except Err (Option Nat)).toOption.getD (some 0)).getD 0 = db.log.length := by
    unfold Spec.head Except.toOption
    cases db.log <;> simp
  have hn : newSemaphore (readersLimit S.threads S.cores) = .ok (readersLimit S.threads S.cores) := by
    unfold newSemaphore
    rw [if_neg (by omega)]
  unfold startServer
  rw [h1]
  simp only [h2, ho, k2, hn, k1, hp, Bool.not_true, Bool.false_eq_true, if_false]
  unfold serveFrom
  dsimp only
  split
  · exact absurd ‹_› h5
  · exact ⟨_, rfl, rfl, rfl, rfl, rfl, rfl, rfl⟩

/-- C73: a server started on the file of a database — left by a closed database, or by one that stopped at any moment outside a commit —
takes calls with that database: all its events and tracking positions, the announced head is the last position, and the number of events
printed is right. -/
theorem C73_existing {H : String → TagHash} {hc : ConfOk S.conf 16} {a : Nat} (hS : InOrder S a) {d0 : PDb} {db : Spec.Db}
    (h0 : Live S.conf hc H d0 db) (hdt : d0.doubt = false) (hf : s.file = some d0.file) :
    ∃ t d, (startServer S s).2 = .ok () ∧ (startServer S s).1.getLast? = some t ∧ t.serving = true ∧ t.db = some d ∧ Live S.conf hc H d db ∧
      t.file = some d.file ∧ t.head = some (Spec.head db.log) ∧ t.printed = some db.log.length := by
  obtain ⟨d, f, ho, hL, -, hdf⟩ := openDb_live h0 hdt
  have ho' : openAt S s.file = (.ok d, f) := by
    unfold openAt
    rw [hS.2.2.1, hf]
    exact ho
  obtain ⟨t, k1, k2, k3, k4, k5, k6, k7⟩ := start_opens hS ho' hL
  exact ⟨t, d, k1, k2, k3, k5, hL, by rw [k4, hdf], k6, k7⟩

/-- C73: where there is no file a new database without events is made. -/
theorem C73_new (H : String → TagHash) (hc : ConfOk S.conf 16) {a : Nat} (hS : InOrder S a) (hf : s.file = none) :
    ∃ t d, (startServer S s).2 = .ok () ∧ (startServer S s).1.getLast? = some t ∧ t.serving = true ∧ t.db = some d ∧
      Live S.conf hc H d .empty ∧ t.file = some d.file ∧ t.head = some none ∧ t.printed = some 0 := by
  obtain ⟨d, f, ho, hL, -, hdf⟩ := openDb_new (hc := hc) H
  have ho' : openAt S s.file = (.ok d, f) := by
    unfold openAt
    rw [hS.2.2.1, hf]
    exact ho
  obtain ⟨t, k1, k2, k3, k4, k5, k6, k7⟩ := start_opens hS ho' hL
  exact ⟨t, d, k1, k2, k3, k5, hL, by rw [k4, hdf], k6, k7⟩

/-- C73: the limit of open files is raised by the first server of a process only, before anything else. -/
theorem C73_once (S : Setting) (s : Site) :
    (∀ t ∈ (startServer S s).1.drop 1, t.once = true ∧
      t.limit = if s.once then s.limit else (raiseLimit S.readsLimit S.accepts s.limit).2) := by
  have hr : (s.raise S).once = true ∧ (s.raise S).limit = if s.once then s.limit else (raiseLimit S.readsLimit S.accepts s.limit).2 := by
    unfold Site.raise
    split <;> simp [*]
  unfold startServer
  dsimp only
  generalize s.raise S = s1 at *
  generalize (if s.once then s.limit else (raiseLimit S.readsLimit S.accepts s.limit).2) = l at *
  obtain ⟨r1, r2⟩ := hr
  split
  · intro t ht; simp_all
  split
  · intro t ht; simp_all
  split
  · intro t ht
    simp only [List.drop_one, List.tail_cons, List.mem_cons, List.not_mem_nil, or_false] at ht
    rcases ht with rfl | rfl | rfl <;> simp_all [Site.drop, Site.off]
  split
  · intro t ht
    simp only [List.drop_one, List.tail_cons, List.mem_cons, List.not_mem_nil, or_false] at ht
    rcases ht with rfl | rfl | rfl | rfl <;> simp_all [Site.drop, Site.off]
  split
  · intro t ht
    simp only [List.drop_one, List.tail_cons, List.mem_cons, List.not_mem_nil, or_false] at ht
    rcases ht with rfl | rfl | rfl | rfl | rfl <;> simp_all [Site.drop, Site.off]
  unfold serveFrom
  dsimp only
  split
  all_goals
    intro t ht
    simp only [List.drop_one, List.cons_append, List.nil_append, List.tail_cons, List.mem_cons, List.not_mem_nil, or_false] at ht
    rcases ht with rfl | rfl | rfl | rfl | rfl | rfl | rfl | rfl | rfl | rfl <;> simp_all [Site.drop, Site.off, Site.setHealth]

/-! ## Stopping -/

/-- C73: when a server stops, health checks say so before any running call is told to end; until it is gone the database stays open and
locked, and the file is not touched; at the end nothing is left. -/
theorem C73_stop (h : Ready S s) :
    (∀ t ∈ stopServer s, t.stop = true → t.health "" = some false ∧ t.health "umadb.v1.DCB" = some false ∧
        ∀ n, t.asked n = some true → n ≠ "" ∧ n ≠ "umadb.v1.DCB") ∧
      (∀ t ∈ stopServer s, t.file = s.file ∧ (Idle t ∨ t.db = s.db ∧ t.locked = true ∧ t.head = s.head)) ∧
      (∀ t ∈ stopServer s, t.stop = true → t.db = s.db) ∧
      (∃ t, (stopServer s).getLast? = some t ∧ Idle t) ∧
      ∃ t ∈ stopServer s, t.stop = true ∧ t.serving = s.serving := by
  have hl := h.locked
  have hst := h.stop
  refine ⟨?_, ?_, ?_, ⟨_, rfl, drop_idle _⟩, ?_⟩
  · intro t ht hs
    simp only [stopServer, List.mem_cons, List.not_mem_nil, or_false] at ht
    rcases ht with rfl | rfl | rfl | rfl | rfl | rfl <;> simp_all [Site.drop, Site.off, Site.setHealth, serviceName, Site.asked]
    all_goals
      intro n _ hn
      constructor
      · intro e; rw [if_neg (by rw [e]; decide), if_pos e] at hn; cases hn
      · intro e; rw [if_pos e] at hn; cases hn
  · intro t ht
    simp only [stopServer, List.mem_cons, List.not_mem_nil, or_false] at ht
    rcases ht with rfl | rfl | rfl | rfl | rfl | rfl
    · exact ⟨rfl, .inr ⟨rfl, hl, rfl⟩⟩
    · exact ⟨rfl, .inr ⟨rfl, hl, rfl⟩⟩
    · exact ⟨rfl, .inr ⟨rfl, hl, rfl⟩⟩
    · exact ⟨rfl, .inr ⟨rfl, hl, rfl⟩⟩
    · exact ⟨rfl, .inr ⟨rfl, hl, rfl⟩⟩
    · exact ⟨rfl, .inl (drop_idle _)⟩
  · intro t ht hs
    simp only [stopServer, List.mem_cons, List.not_mem_nil, or_false] at ht
    rcases ht with rfl | rfl | rfl | rfl | rfl | rfl <;> simp_all [Site.drop, Site.off, Site.setHealth]
  · exact ⟨{ (s.setHealth "" false).setHealth serviceName false with stop := true }, by simp [stopServer], rfl, rfl⟩

/-! ## What a failed start leaves -/

/-- C73 does not extend to every error, `C73_address` and `C73_taken` do not hold of the other two: a start that panics because of its TLS
material or the number of reader threads — both known before anything is opened — has by then created the database file. -/
theorem C73_clean_false (H : String → TagHash) (hc : ConfOk S.conf 16) {a : Nat} (h1 : S.addr = some a) (h2 : S.binds = true) (h3 : S.taken = false)
    (hbad : 2 ^ 61 ≤ readersLimit S.threads S.cores ∨ S.tls = some false) (hf : s.file = none) :
    ∃ m t d, (startServer S s).2 = .error (.failed (.panic m)) ∧ (startServer S s).1.getLast? = some t ∧ Idle t ∧ t.file = some d.file ∧
      Live S.conf hc H d .empty := by
  obtain ⟨d, f, ho, hL, -, hdf⟩ := openDb_new (hc := hc) H
  obtain ⟨k1, k2⟩ := C11_handler_head (env := ⟨H, id⟩) hL
  have ho' : openAt S s.file = (.ok d, f) := by
    unfold openAt
    rw [h3, hf]
    exact ho
  unfold startServer
  rw [h1]
  simp only [h2, ho', k2, Bool.not_true, Bool.false_eq_true, if_false]
  by_cases hb : 2 ^ 61 ≤ readersLimit S.threads S.cores
  · have hn : newSemaphore (readersLimit S.threads S.cores) = .error (.panic "a semaphore may not have more than MAX_PERMITS permits") := by
      unfold newSemaphore
      rw [if_pos (by omega)]
    rw [hn]
    exact ⟨_, _, d, rfl, rfl, drop_idle _, by rw [hdf]; rfl, hL⟩
  · have hn : newSemaphore (readersLimit S.threads S.cores) = .ok (readersLimit S.threads S.cores) := by
      unfold newSemaphore
      rw [if_neg (by omega)]
    rw [hn]
    have ht : S.tls = some false := hbad.resolve_left hb
    simp only [serveFrom, ht]
    exact ⟨_, _, d, rfl, rfl, drop_idle _, by rw [hdf]; rfl, hL⟩

example : (2 ^ 61 ≤ readersLimit (some "4611686018427387904".toList) none) ∧ Idle (.off ⟨1024, 4096⟩ none) :=
  ⟨by decide +kernel, off_idle _ _⟩

/-! ## Examples -/

def exSetting : Setting := ⟨exConf, some 50051, true, false, true, fun _ => true, none, some 8, none⟩

/-- A new server, then one on a file with an event. -/
example : InOrder exSetting 50051 ∧ Idle (.off ⟨1024, 4096⟩ none) ∧
    ∃ t, (startServer exSetting (.off ⟨1024, 4096⟩ none)).1.getLast? = some t ∧ t.asked "" = some true ∧ t.asked "umadb.v1.DCB" = some true ∧
      t.asked "other" = none ∧ t.limit = ⟨4096, 4096⟩ ∧ t.permits = some 32 := by
  refine ⟨⟨rfl, rfl, rfl, by decide +kernel, by decide⟩, off_idle _ _, ?_⟩
  obtain ⟨d, f, ho, hL, -, -⟩ := openDb_new (c := exConf) (hc := exConf_ok) (fun _ => 0)
  obtain ⟨k1, k2⟩ := C11_handler_head (env := ⟨fun _ => 0, id⟩) hL
  have ho' : openAt exSetting (Site.off ⟨1024, 4096⟩ none).file = (.ok d, f) := by
    unfold openAt
    rw [show exSetting.taken = false from rfl, if_neg (by decide)]
    exact ho
  have hn : newSemaphore (readersLimit exSetting.threads exSetting.cores) = .ok 32 := by decide +kernel
  unfold startServer
  simp only [show exSetting.addr = some 50051 from rfl, show exSetting.binds = true from rfl, Bool.not_true, Bool.false_eq_true, if_false, ho', k2, hn, serveFrom,
    show exSetting.tls = none from rfl]
  exact ⟨_, rfl, by simp [Site.asked, Site.setHealth], by simp [Site.asked, Site.setHealth, serviceName],
    by simp [Site.asked, Site.setHealth, serviceName, newHealth],
    show (Site.raise exSetting (Site.off ⟨1024, 4096⟩ none)).limit = ⟨4096, 4096⟩ by decide +kernel, rfl⟩

/-- A server on a file with two events, and what happens when it is stopped. -/
example : ∃ (dA : PDb) (t : Site), (startServer exSetting (.off ⟨1024, 4096⟩ (some dA.file))).1.getLast? = some t ∧ t.head = some (some 2) ∧
    t.printed = some 2 ∧ t.serving = true ∧ Ready exSetting t ∧ (stopServer t).map (fun u => (u.asked "", u.asked serviceName, u.stop)) =
      [(some true, some true, false), (some false, some true, false), (some false, some false, false), (some false, some false, true),
        (none, none, true), (none, none, false)] := by
  obtain ⟨d, dA, -, -, h3, h4⟩ := exBegun
  obtain ⟨t, d', k1, k2, k3, k4, k5, k6, k7, k8⟩ := C73_existing (S := exSetting) (s := .off ⟨1024, 4096⟩ (some dA.file)) (hc := exConf_ok)
    (H := exConstEnv.H) (a := 50051) ⟨rfl, rfl, rfl, by decide +kernel, by decide⟩ h3 h4 rfl
  have hR := (C73_ready (S := exSetting) (off_idle ⟨1024, 4096⟩ (some dA.file))).1 t (List.mem_of_getLast? k2) k3
  refine ⟨dA, t, k2, by rw [k7]; rfl, by rw [k8]; rfl, k3, hR, ?_⟩
  simp [stopServer, Site.asked, Site.setHealth, serviceName, k3, hR.health.1, hR.health.2, hR.stop, Site.drop, Site.off]

end Uma.Props
