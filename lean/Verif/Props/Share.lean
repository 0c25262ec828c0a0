import Verif.Page.Share
import Verif.Props.Proc

/-!
# C72: several processes and one path
-/

namespace Uma.Props
open Uma.Codec Uma.Mvcc Uma.Spec Uma.Page Uma.Db

variable {c : Conf} {env : Env}

theorem steps_append : ∀ (xs ys : List (Nat × ShareAct)) (S : Shared), S.steps c env (xs ++ ys) =
    ((S.steps c env xs).1 ++ ((S.steps c env xs).2.steps c env ys).1, ((S.steps c env xs).2.steps c env ys).2)
  | [], _, _ => rfl
  | (i, a) :: xs, ys, S => by
    simp only [List.cons_append, Shared.steps]
    rw [steps_append xs ys]

/-! ## Who may touch the file -/

/-- The process has the lock, in its own view. -/
def hasLock : Standing → Bool
  | .locked _ | .up _ => true
  | _ => false

/-- The lock is held by the one process that believes so, on a file that exists. -/
structure Owned (S : Shared) : Prop where
  lock : ∀ i, hasLock (S.proc i) = true ↔ S.lock = some i
  file : S.lock.isSome → S.file.isSome
  there : ∀ i n, S.proc i = .opened n → S.file.isSome

theorem Owned.start (f : Option File) : Owned (.start f) := ⟨fun _ => by simp [Shared.start, hasLock], by simp [Shared.start], fun _ _ h => by cases h⟩

theorem set_proc (S : Shared) (i j : Nat) (st : Standing) : (S.set i st).proc j = if j = i then st else S.proc j := rfl

theorem Owned.change {S S' : Shared} (h : Owned S) {i : Nat} {st : Standing} (hp : S'.proc = (S.set i st).proc) (hl : S'.lock = S.lock)
    (hs : hasLock st = hasLock (S.proc i)) (hf : S.file.isSome → S'.file.isSome)
    (ho : ∀ n, st = .opened n → S'.file.isSome) : Owned S' := by
  refine ⟨fun j => ?_, fun k => hf (h.file (by rw [← hl]; exact k)), fun j n k => ?_⟩
  · rw [hp, hl, set_proc]
    by_cases hj : j = i
    · rw [if_pos hj, hs, ← hj]; exact h.lock j
    · rw [if_neg hj]; exact h.lock j
  · rw [hp, set_proc] at k
    split at k
    · exact ho n k
    · exact hf (h.there j n k)

theorem Owned.leave {S S' : Shared} (h : Owned S) {i : Nat} (hp : S'.proc = (S.leave i).proc) (hl : S'.lock = (S.leave i).lock)
    (hf : S.file.isSome → S'.file.isSome) : Owned S' := by
  refine ⟨fun j => ?_, fun k => hf (h.file ?_), fun j n k => hf (h.there j n ?_)⟩
  · rw [hp, hl]
    show hasLock (if j = i then Standing.out else S.proc j) = true ↔ (if S.lock = some i then none else S.lock) = some j
    by_cases hj : j = i
    · subst hj
      rw [if_pos rfl]
      constructor
      · intro k; cases k
      · split
        · intro k; cases k
        · intro k; contradiction
    · rw [if_neg hj]
      constructor
      · intro k
        have := (h.lock j).mp k
        rw [if_neg (by rw [this]; intro e; cases e; exact hj rfl)]
        exact this
      · split
        · intro k; cases k
        · exact (h.lock j).mpr
  · rw [hl] at k
    unfold Shared.leave at k
    dsimp only at k
    split at k
    · cases k
    · exact k
  · rw [hp] at k
    have k : (if j = i then Standing.out else S.proc j) = .opened n := k
    split at k
    · cases k
    · exact k

theorem Owned.step {S : Shared} (h : Owned S) (i : Nat) (a : ShareAct) : Owned (S.step c env i a).2 := by
  cases a with
  | look =>
    unfold Shared.step
    dsimp only
    split
    · next e => exact h.change rfl rfl (by rw [e]; rfl) id (fun _ k => by cases k)
    · exact h
  | openFile =>
    unfold Shared.step
    dsimp only
    split
    · next n e =>
      split
      · next e' => exact h.change rfl rfl (by rw [e]; rfl) id (fun _ _ => by show S.file.isSome; rw [e']; rfl)
      · split
        · exact h.change rfl rfl (by rw [e]; rfl) (fun _ => rfl) (fun _ _ => rfl)
        · exact h.change rfl rfl (by rw [e]; rfl) id (fun _ k => by cases k)
    · exact h
  | lock =>
    unfold Shared.step
    dsimp only
    split
    · next n e =>
      split
      · exact h.change rfl rfl (by rw [e]; rfl) id (fun _ k => by cases k)
      · next hl =>
        have hfree : ∀ j, hasLock (S.proc j) = true → False := fun j k => by rw [h.lock j, hl] at k; cases k
        refine ⟨fun j => ?_, fun _ => h.there i n e, fun j m k => ?_⟩
        · show hasLock (if j = i then Standing.locked n else S.proc j) = true ↔ some i = some j
          by_cases hj : j = i
          · rw [if_pos hj, hj]; exact ⟨fun _ => rfl, fun _ => rfl⟩
          · rw [if_neg hj]
            exact ⟨fun k => (hfree j k).elim, fun k => by cases k; exact absurd rfl hj⟩
        · have k : (if j = i then Standing.locked n else S.proc j) = .opened m := k
          split at k
          · cases k
          · exact h.there j m k
    · exact h
  | init =>
    unfold Shared.step
    dsimp only
    split
    · next n f e ef =>
      split
      · exact h.leave rfl rfl (fun _ => rfl)
      · exact h.change rfl rfl (by rw [e]; rfl) (fun _ => rfl) (fun _ k => by cases k)
    · exact h
  | stop => exact h.leave rfl rfl id
  | append req io =>
    unfold Shared.step
    dsimp only
    split
    · next d f e ef => exact h.change rfl rfl (by rw [e]; rfl) (fun _ => rfl) (fun _ k => by cases k)
    · exact h
  | read => unfold Shared.step; dsimp only; split <;> exact h
  | track => unfold Shared.step; dsimp only; split <;> exact h
  | head => unfold Shared.step; dsimp only; split <;> exact h

theorem Owned.steps : ∀ (xs : List (Nat × ShareAct)) {S : Shared}, Owned S → Owned (S.steps c env xs).2
  | [], _, h => h
  | (i, a) :: xs, _, h => Owned.steps xs (h.step i a)

/-- Whatever processes do, and however their steps are interleaved, no two have the database open. -/
theorem C72_exclusive (f : Option File) (xs : List (Nat × ShareAct)) {i j : Nat} {d d' : PDb}
    (hi : ((Shared.start f).steps c env xs).2.proc i = .up d) (hj : ((Shared.start f).steps c env xs).2.proc j = .up d') : i = j := by
  have h := Owned.steps (c := c) (env := env) xs (Owned.start f)
  have h1 := (h.lock i).mp (by rw [hi]; rfl)
  have h2 := (h.lock j).mp (by rw [hj]; rfl)
  rw [h1] at h2
  cases h2; rfl

/-- While a process has the database open, no step of another changes the file, or its use of the database. -/
theorem C72_untouched (f : Option File) (xs : List (Nat × ShareAct)) {i j : Nat} {d : PDb} (hj : j ≠ i)
    (hi : ((Shared.start f).steps c env xs).2.proc i = .up d) (a : ShareAct) :
    ((((Shared.start f).steps c env xs).2.step c env j a).2.file = ((Shared.start f).steps c env xs).2.file) ∧
    (((Shared.start f).steps c env xs).2.step c env j a).2.proc i = .up d := by
  have h := Owned.steps (c := c) (env := env) xs (Owned.start f)
  revert h hi
  generalize ((Shared.start f).steps c env xs).2 = S
  intro hi h
  have hl := (h.lock i).mp (by rw [hi]; rfl)
  have hn : hasLock (S.proc j) = true → False := fun k => by
    rw [h.lock j, hl] at k
    cases k; exact hj rfl
  obtain ⟨f', hf⟩ : ∃ f', S.file = some f' := Option.isSome_iff_exists.mp (h.file (by rw [hl]; rfl))
  have hset : ∀ st, (S.set j st).proc i = .up d := fun st => by rw [set_proc, if_neg (fun e => hj e.symm)]; exact hi
  cases a <;> unfold Shared.step <;> dsimp only <;> rcases hp : S.proc j with _ | n | n | n | d' <;>
    first
    | (exact absurd (by rw [hp]; rfl) hn)
    | skip
  all_goals dsimp only [Shared.leave]
  all_goals first
    | exact ⟨rfl, hi⟩
    | exact ⟨rfl, hset _⟩
    | skip
  · rw [hf]; exact ⟨hf, hset _⟩
  · rw [hl]; exact ⟨rfl, hset _⟩

/-! ## One log -/

/-- What there is to know from outside: the content of the database once there is one, who has its lock, and whether that process has been
told that it is open. -/
structure Office where
  db : Option Spec.Db
  holder : Option Nat
  ready : Bool

/-- A call of the library, in the terms of C70. -/
def asCall : ShareAct → Option ProcCall
  | .append req io => some (.append req io)
  | .read q s b l => some (.read q s b l)
  | .track src => some (.track src)
  | .head => some .head
  | _ => none

/-- What process `i` may be told, and what then is the case: one database, passed from process to process.  Opening makes a new
database only if there was none, and otherwise changes nothing. -/
def Told (valid : Record → Prop) [DecidablePred valid] (O : Office) (i : Nat) (a : ShareAct) (r : ShareReply) (O' : Office) : Prop :=
  match a with
  | .look | .openFile => r = .still ∧ O' = O
  | .lock =>
    (r = .still ∧ O' = O) ∨ (r = .still ∧ O.holder = none ∧ O' = ⟨O.db, some i, false⟩) ∨
    ((∃ e, r = .opened (.error (.initialization e))) ∧ O.holder ≠ none ∧ O.holder ≠ some i ∧ O' = O)
  | .init =>
    if O.holder = some i ∧ O.ready = false then
      (r = .opened (.ok ()) ∧ O' = ⟨some (O.db.getD .empty), some i, true⟩) ∨
      ((∃ e, r = .opened (.error e)) ∧ O.db = none ∧ O' = ⟨none, none, false⟩)
    else r = .still ∧ O' = O
  | .stop => r = .still ∧ O' = if O.holder = some i then ⟨O.db, none, false⟩ else O
  | a =>
    if O.holder = some i ∧ O.ready = true then
      ∃ x y, asCall a = some x ∧ r = .said y ∧ O.db.isSome ∧ Answered valid O.db x y O'.db ∧ O' = ⟨O'.db, some i, true⟩
    else r = .still ∧ O' = O

open Classical in
inductive ToldAll (valid : Record → Prop) : Office → List (Nat × ShareAct) → List (Nat × ShareReply) → Office → Prop
  | nil (O) : ToldAll valid O [] [] O
  | cons {O O' O'' i a r xs rs} : Told valid O i a r O' → ToldAll valid O' xs rs O'' → ToldAll valid O ((i, a) :: xs) ((i, r) :: rs) O''

/-- No process looks for the file in vain while another that has done so has not yet created it. -/
def Calm (c : Conf) (env : Env) : List (Nat × ShareAct) → Shared → Prop
  | [], _ => True
  | (i, a) :: xs, S => (a = .look → S.file = none → ∀ j, j ≠ i → S.proc j ≠ .looked true) ∧ Calm c env xs (S.step c env i a).2

/-- Positions in conditions are as in C03; the header is written when it is to be (see C52). -/
def Sound : ShareAct → Prop
  | .append req io => AfterOk req ∧ ∀ junk, io.fault ≠ some (.header junk)
  | _ => True

/-- The process will create a database, unless it is refused the lock. -/
def willCreate : Standing → Bool
  | .looked n | .opened n | .locked n => n
  | _ => false

section OneLog
variable {hc : ConfOk c 16} {v5 : String → Uuid} {ord : List (String × List Nat) → List (String × List Nat)}

structure Linked (hc : ConfOk c 16) (v5 : String → Uuid) (S : Shared) (O : Office) : Prop where
  lock : S.lock = O.holder
  locked : ∀ i, (∃ n, S.proc i = .locked n) ↔ O.holder = some i ∧ O.ready = false
  up : ∀ i, (∃ d, S.proc i = .up d) ↔ O.holder = some i ∧ O.ready = true
  idle : O.holder = none → O.ready = false
  looked : ∀ i, S.proc i = .looked true → S.file = none
  there : ∀ i, S.proc i ≠ .out → S.proc i ≠ .looked true → S.file ≠ none
  one : ∀ i j, willCreate (S.proc i) = true → willCreate (S.proc j) = true → i = j
  fresh : ∀ i, willCreate (S.proc i) = true → O.db = none
  blank : O.db = none → (S.file = none ∨ S.file = some emptyFile) ∧ O.ready = false
  used : ∀ s, O.db = some s → ∃ f, S.file = some f ∧
    (∀ i d, S.proc i = .up d → Live c hc (tagHash v5 16) { d with file := f } s ∧ d.doubt = false) ∧
    (O.ready = false → ∃ d, Live c hc (tagHash v5 16) d s ∧ d.doubt = false ∧ d.file = f)

/-- A process without the lock takes a step that does not get it one. -/
theorem Linked.shift {S S' : Shared} {O : Office} (h : Linked hc v5 S O) {i : Nat} {st : Standing} (hp : S'.proc = (S.set i st).proc)
    (hl : S'.lock = S.lock) (h0 : hasLock (S.proc i) = false) (h1 : hasLock st = false) (hk : st = .looked true → S'.file = none)
    (ht : st ≠ .out → st ≠ .looked true → S'.file ≠ none)
    (hw : willCreate st = true → O.db = none ∧ ∀ j, j ≠ i → willCreate (S.proc j) = true → False)
    (hf : S'.file = S.file ∨ (S.file = none ∧ S'.file = some emptyFile ∧ ∀ j, j ≠ i → S.proc j ≠ .looked true)) : Linked hc v5 S' O := by
  have hpj : ∀ j, S'.proc j = if j = i then st else S.proc j := fun j => by rw [hp, set_proc]
  have hsome : S.file ≠ none → S'.file ≠ none := fun k => by
    rcases hf with hf | ⟨hf, -, -⟩
    · rw [hf]; exact k
    · exact absurd hf k
  refine ⟨hl.trans h.lock, fun j => ?_, fun j => ?_, h.idle, fun j k => ?_, fun j k1 k2 => ?_, fun j l k1 k2 => ?_, fun j k => ?_, fun k => ?_, fun s k => ?_⟩
  · rw [hpj]
    by_cases hj : j = i
    · rw [if_pos hj, ← h.locked j, hj]
      refine ⟨fun ⟨n, e⟩ => ?_, fun ⟨n, e⟩ => ?_⟩
      · rw [e] at h1; cases h1
      · rw [e] at h0; cases h0
    · rw [if_neg hj]; exact h.locked j
  · rw [hpj]
    by_cases hj : j = i
    · rw [if_pos hj, ← h.up j, hj]
      refine ⟨fun ⟨n, e⟩ => ?_, fun ⟨n, e⟩ => ?_⟩
      · rw [e] at h1; cases h1
      · rw [e] at h0; cases h0
    · rw [if_neg hj]; exact h.up j
  · rw [hpj] at k
    by_cases hj : j = i
    · rw [if_pos hj] at k; exact hk k
    · rw [if_neg hj] at k
      rcases hf with hf | ⟨-, -, hf⟩
      · rw [hf]; exact h.looked j k
      · exact absurd k (hf j hj)
  · rw [hpj] at k1 k2
    by_cases hj : j = i
    · rw [if_pos hj] at k1 k2; exact ht k1 k2
    · rw [if_neg hj] at k1 k2; exact hsome (h.there j k1 k2)
  · rw [hpj] at k1 k2
    by_cases hj : j = i <;> by_cases hl : l = i
    · rw [hj, hl]
    · rw [if_pos hj] at k1; rw [if_neg hl] at k2; exact ((hw k1).2 l hl k2).elim
    · rw [if_neg hj] at k1; rw [if_pos hl] at k2; exact ((hw k2).2 j hj k1).elim
    · rw [if_neg hj] at k1; rw [if_neg hl] at k2; exact h.one j l k1 k2
  · rw [hpj] at k
    by_cases hj : j = i
    · rw [if_pos hj] at k; exact (hw k).1
    · rw [if_neg hj] at k; exact h.fresh j k
  · obtain ⟨b1, b2⟩ := h.blank k
    refine ⟨?_, b2⟩
    rcases hf with hf | ⟨-, hf, -⟩
    · rw [hf]; exact b1
    · exact .inr hf
  · obtain ⟨f, u1, u2, u3⟩ := h.used s k
    rcases hf with hf | ⟨hf, -, -⟩
    · refine ⟨f, hf.trans u1, fun j d e => ?_, u3⟩
      rw [hpj] at e
      by_cases hj : j = i
      · rw [if_pos hj] at e; rw [e] at h1; cases h1
      · rw [if_neg hj] at e; exact u2 j d e
    · rw [hf] at u1; cases u1

/-- The holder of the lock goes on: to `st`, with the file as given. -/
theorem Linked.moved {S S' : Shared} {O : Office} (h : Linked hc v5 S O) {i : Nat} {st : Standing} {ho : Option Nat} {db : Option Spec.Db} {rd : Bool}
    {f : File} (hp : S'.proc = (S.set i st).proc) (hl : S'.lock = ho) (hf : S'.file = some f)
    (hi : O.holder = none ∨ O.holder = some i) (hs : (ho = some i ∧ hasLock st = true) ∨ (ho = none ∧ hasLock st = false ∧ rd = false))
    (hfile : S.file ≠ none) (h1 : ∀ n, st = .locked n → rd = false) (h2 : ∀ d, st = .up d → rd = true) (hst : st ≠ .looked true)
    (hw : willCreate st = true → willCreate (S.proc i) = true)
    (hdb : db = O.db ∨ ∀ j, j ≠ i → willCreate (S.proc j) = false ∧ willCreate st = false)
    (hblank : db = none → f = emptyFile ∧ rd = false)
    (hused : ∀ s, db = some s → (∀ d, st = .up d → Live c hc (tagHash v5 16) { d with file := f } s ∧ d.doubt = false) ∧
      (rd = false → ∃ d, Live c hc (tagHash v5 16) d s ∧ d.doubt = false ∧ d.file = f)) : Linked hc v5 S' ⟨db, ho, rd⟩ := by
  have hpj : ∀ j, S'.proc j = if j = i then st else S.proc j := fun j => by rw [hp, set_proc]
  have hother : ∀ j, j ≠ i → hasLock (S.proc j) = true → False := by
    intro j hj k
    have : O.holder = some j := by
      cases e : S.proc j with
      | locked n => exact ((h.locked j).mp ⟨n, e⟩).1
      | up d => exact ((h.up j).mp ⟨d, e⟩).1
      | out => rw [e] at k; cases k
      | looked n => rw [e] at k; cases k
      | opened n => rw [e] at k; cases k
    rcases hi with hi | hi
    · rw [hi] at this; cases this
    · rw [hi] at this; cases this; exact hj rfl
  have hne : ∀ j, j ≠ i → ho ≠ some j := by
    intro j hj e
    rcases hs with ⟨k, -⟩ | ⟨k, -⟩
    · rw [k] at e; cases e; exact hj rfl
    · rw [k] at e; cases e
  refine ⟨hl, fun j => ?_, fun j => ?_, fun k => ?_, fun j k => ?_, fun j k1 k2 => by rw [hf]; simp, fun j l k1 k2 => ?_, fun j k => ?_, fun k => ?_, fun s k => ?_⟩
  · rw [hpj]
    by_cases hj : j = i
    · subst hj
      rw [if_pos rfl]
      refine ⟨fun ⟨n, e⟩ => ?_, fun ⟨e1, e2⟩ => ?_⟩
      · rcases hs with ⟨k, -⟩ | ⟨-, k, -⟩
        · exact ⟨k, h1 n e⟩
        · rw [e] at k; cases k
      · have e1 : ho = some j := e1
        have e2 : rd = false := e2
        rcases hs with ⟨-, k⟩ | ⟨k, -⟩
        · cases hst' : st with
          | locked n => exact ⟨n, rfl⟩
          | up d => have := h2 d hst'; rw [this] at e2; cases e2
          | out => rw [hst'] at k; cases k
          | looked n => rw [hst'] at k; cases k
          | opened n => rw [hst'] at k; cases k
        · rw [k] at e1; cases e1
    · rw [if_neg hj]
      exact ⟨fun ⟨n, e⟩ => (hother j hj (by rw [e]; rfl)).elim, fun ⟨e, _⟩ => absurd e (hne j hj)⟩
  · rw [hpj]
    by_cases hj : j = i
    · subst hj
      rw [if_pos rfl]
      refine ⟨fun ⟨n, e⟩ => ?_, fun ⟨e1, e2⟩ => ?_⟩
      · rcases hs with ⟨k, -⟩ | ⟨-, k, -⟩
        · exact ⟨k, h2 n e⟩
        · rw [e] at k; cases k
      · have e1 : ho = some j := e1
        have e2 : rd = true := e2
        rcases hs with ⟨-, k⟩ | ⟨k, -⟩
        · cases hst' : st with
          | up n => exact ⟨n, rfl⟩
          | locked d => have := h1 d hst'; rw [this] at e2; cases e2
          | out => rw [hst'] at k; cases k
          | looked n => rw [hst'] at k; cases k
          | opened n => rw [hst'] at k; cases k
        · rw [k] at e1; cases e1
    · rw [if_neg hj]
      exact ⟨fun ⟨n, e⟩ => (hother j hj (by rw [e]; rfl)).elim, fun ⟨e, _⟩ => absurd e (hne j hj)⟩
  · have k : ho = none := k
    rcases hs with ⟨e, -⟩ | ⟨-, -, e⟩
    · rw [k] at e; cases e
    · exact e
  · rw [hpj] at k
    by_cases hj : j = i
    · rw [if_pos hj] at k; exact absurd k hst
    · rw [if_neg hj] at k; exact absurd (h.looked j k) hfile
  · have hall : ∀ j, willCreate (S'.proc j) = true → willCreate (S.proc j) = true := by
      intro j k
      rw [hpj] at k
      by_cases hj : j = i
      · rw [if_pos hj] at k; rw [hj]; exact hw k
      · rw [if_neg hj] at k; exact k
    exact h.one j l (hall j k1) (hall l k2)
  · rw [hpj] at k
    show db = none
    rcases hdb with hdb | hdb
    · rw [hdb]
      by_cases hj : j = i
      · rw [if_pos hj] at k; exact h.fresh i (hw k)
      · rw [if_neg hj] at k; exact h.fresh j k
    · by_cases hj : j = i
      · rw [if_pos hj] at k
        have := (hdb (i + 1) (by omega)).2
        rw [this] at k; cases k
      · rw [if_neg hj] at k
        have := (hdb j hj).1
        rw [this] at k; cases k
  · obtain ⟨b1, b2⟩ := hblank k
    exact ⟨.inr (by rw [hf, b1]), b2⟩
  · obtain ⟨u1, u2⟩ := hused s k
    refine ⟨f, hf, fun j d e => ?_, u2⟩
    rw [hpj] at e
    by_cases hj : j = i
    · rw [if_pos hj] at e; exact u1 d e
    · rw [if_neg hj] at e; exact (hother j hj (by rw [e]; rfl)).elim

/-- Opening a file that a database has left. -/
theorem openDb_live {d : PDb} {s : Spec.Db} {H : String → TagHash} (hL : Live c hc H d s) (hd : d.doubt = false) :
    ∃ d' f', openDb c false d.file = (.ok d', f') ∧ Live c hc H d' s ∧ d'.doubt = false ∧ d'.file = f' := by
  have hcr : Crash c d { d.file with known := d.file.len } := by
    obtain ⟨hp, h, PE, PT, PK, PF, ix, F, L, S⟩ := hL
    exact ⟨⟨S.touched.zeroed, S.touched.len, S.touched.other⟩, fun k _ => .inr ⟨d.file, by simp, fun _ => rfl⟩⟩
  obtain ⟨d', h1, h2, h3⟩ := crash_recovers hL hd hcr (kw0 := tagHashLen) (by decide)
  have hf : (openExisting c.g tagHashLen c.zeroFill { d.file with known := d.file.len }).2 = d'.file := by
    unfold reopen at h1
    split at h1
    · cases h1
    · next m f' e =>
      rw [e]
      cases hl : latestPage m.h0 m.h1 with
      | error x => rw [hl] at h1; cases h1
      | ok p => rw [hl] at h1; cases h1; rfl
  refine ⟨d', d'.file, ?_, h2.live, h3, rfl⟩
  unfold openDb
  dsimp only
  rw [if_neg (by decide)]
  exact Prod.ext h1 hf

/-- Opening a file that was just created, when it is taken for a database. -/
theorem openDb_blank (hps : 0 < c.g.pageSize) : ∃ e, openDb c false emptyFile = (.error e, emptyFile) := by
  refine ⟨.io "Page not found", ?_⟩
  unfold openDb
  dsimp only
  rw [if_neg (by decide)]
  unfold reopen
  rw [show ({ emptyFile with known := emptyFile.len } : File) = emptyFile from rfl, C47_empty_file_false hps]

theorem openDb_new (H : String → TagHash) : ∃ d f, openDb c true emptyFile = (.ok d, f) ∧ Live c hc H d .empty ∧ d.doubt = false ∧ d.file = f := by
  obtain ⟨m, f, h1, h2⟩ := create_live hc H
  refine ⟨_, _, ?_, h2 none, rfl, rfl⟩
  unfold openDb
  dsimp only
  rw [if_pos rfl, show ({ emptyFile with known := emptyFile.len } : File) = emptyFile from rfl, h1]
  rfl

/-- A transaction belongs to the database it was begun on. -/
theorem begin_db {d : PDb} {w : PW} (h : (pageBackend c).begin d = .ok w) : w.db = d := by
  have h : PDb.writer c d = .ok w := h
  unfold PDb.writer at h
  simp only [bind, Except.bind] at h
  split at h
  · cases h
  split at h
  · cases h
  split at h
  · cases h
  · cases h; rfl

theorem commit_doubt {io : Page.IO} (hio : ∀ junk, io.fault ≠ some (.header junk)) {w : PW} (hd : w.db.doubt = false) :
    (w.commit c io).2.doubt = false := by
  unfold PW.commit
  split
  · exact hd
  · unfold commitPages
    split
    · exact hd
    · split
      · exact hd
      · split
        · exact hd
        · unfold commitHead
          split
          · exact hd
          · split
            · exact hd
            · split
              · next junk e => exact absurd e (hio junk)
              · split
                · exact hd
                · rfl

/-- Without a failure at the header, it is never in doubt what the header slots hold. -/
theorem append_doubt {req : Request} {io : Page.IO} (hio : ∀ junk, io.fault ≠ some (.header junk)) {d : PDb} (hd : d.doubt = false) :
    (Db.append (pageBackend c) env req io d).2.doubt = false := by
  have K : Keeps (pageBackend c) fun w : PW => w.db.doubt = false := ⟨fun _ h => h, fun _ _ _ h => h, fun _ _ _ _ h => h, fun _ _ _ h => h⟩
  unfold Db.append
  split
  · exact hd
  · split
    · exact hd
    · next w hw =>
      have hk := K.processAppend env req (fun _ => Cancel.never) w (by rw [begin_db hw]; exact hd)
      split
      · next p w' e =>
        rw [e] at hk
        have hcm := commit_doubt (c := c) hio (w := w') hk
        split
        · next e' => rw [show (pageBackend c).commit io w' = w'.commit c io from rfl] at e'; rw [e'] at hcm; exact hcm
        · next e' => rw [show (pageBackend c).commit io w' = w'.commit c io from rfl] at e'; rw [e'] at hcm; exact hcm
      · exact hd

open Classical in
/-- What the calls of a process answer, in the terms of C70. -/
theorem answered_one (ho : ∀ l, (ord l).Perm l) {d : PDb} {s : Spec.Db} (hl : Live c hc (tagHash v5 16) d s) {x : ProcCall} (hx : Plain x) :
    ∃ s', Answered (Accepted c.g.pageSize) (some s) x (Proc.call (fun _ => c) v5 ord ⟨16, fun _ => some d⟩ 0 x).1 s' ∧
      ∀ d', (Proc.call (fun _ => c) v5 ord ⟨16, fun _ => some d⟩ 0 x).2.db 0 = some d' → ∃ s1, s' = some s1 ∧ Live c hc (tagHash v5 16) d' s1 := by
  have hhold : HoldAll (fun _ => c) (fun _ => hc) v5 ⟨16, fun _ => some d⟩ (fun _ => some s) := ⟨rfl, fun _ => hl⟩
  obtain ⟨s', hans, hnew⟩ := hhold.call (fun _ => hc) ho 0 hx
  refine ⟨s', hans, fun d' hd' => ?_⟩
  have hnew := hnew.2 0
  dsimp only at hnew
  rw [if_pos rfl, hd'] at hnew
  cases s' with
  | none => exact hnew.elim
  | some s1 => exact ⟨s1, rfl, hnew⟩

open Classical in
theorem Linked.call (ho : ∀ l, (ord l).Perm l) {S : Shared} {O : Office} (h : Linked hc v5 S O) {i : Nat} {a : ShareAct} {x : ProcCall} (hx : asCall a = some x)
    (hs : Sound a) : ∃ O', Told (Accepted c.g.pageSize) O i a (S.step c ⟨tagHash v5 16, ord⟩ i a).1 O' ∧
      Linked hc v5 (S.step c ⟨tagHash v5 16, ord⟩ i a).2 O' := by
  by_cases hr : O.holder = some i ∧ O.ready = true
  · obtain ⟨d, hd⟩ := (h.up i).mpr hr
    obtain ⟨s, hdb⟩ : ∃ s, O.db = some s := by
      cases e : O.db with
      | some s => exact ⟨s, rfl⟩
      | none => have := (h.blank e).2; rw [hr.2] at this; cases this
    obtain ⟨f, u1, u2, -⟩ := h.used s hdb
    obtain ⟨hl, hdt⟩ := u2 i d hd
    have hO : O = ⟨some s, some i, true⟩ := by
      obtain ⟨o1, o2, o3⟩ := O
      obtain ⟨r1, r2⟩ := hr
      cases r1; cases r2; cases hdb; rfl
    have hpl : Plain x := by cases a <;> cases hx <;> first | exact hs.1 | trivial
    obtain ⟨s', hans, hnew⟩ := answered_one ho hl hpl
    have hat : atWidth 16 { d with file := f } = { d with file := f } := atWidth_live (hH := tagHash_normalized v5 (.inl rfl)) hl
    have hsame : ∀ {y : ShareReply}, (S.step c ⟨tagHash v5 16, ord⟩ i a) = (y, S) → s' = some s →
        y = .said (Proc.call (fun _ => c) v5 ord ⟨16, fun _ => some { d with file := f }⟩ 0 x).1 →
        (∀ P : Prop, (∃ x y', asCall a = some x ∧ y = .said y' ∧ O.db.isSome ∧ Answered (Accepted c.g.pageSize) O.db x y' O.db ∧ O = ⟨O.db, some i, true⟩) →
          (Told (Accepted c.g.pageSize) O i a y O → P) → P) → 
        ∃ O', Told (Accepted c.g.pageSize) O i a (S.step c ⟨tagHash v5 16, ord⟩ i a).1 O' ∧ Linked hc v5 (S.step c ⟨tagHash v5 16, ord⟩ i a).2 O' := by
      intro y hy hs' hyr hP
      rw [hy]
      refine hP _ ⟨x, _, hx, hyr, by rw [hdb]; rfl, ?_, ?_⟩ fun ht => ⟨O, ht, h⟩
      · rw [hdb]
        rw [hs'] at hans
        exact hans
      · rw [hO]
    cases a with
    | look => cases hx
    | openFile => cases hx
    | lock => cases hx
    | init => cases hx
    | stop => cases hx
    | append req io =>
      cases hx
      have e1 : S.step c ⟨tagHash v5 16, ord⟩ i (.append req io) =
          (.said (.appended (Db.append (pageBackend c) ⟨tagHash v5 16, ord⟩ req io { d with file := f }).1),
            { S.set i (.up (Db.append (pageBackend c) ⟨tagHash v5 16, ord⟩ req io { d with file := f }).2) with
              file := some (Db.append (pageBackend c) ⟨tagHash v5 16, ord⟩ req io { d with file := f }).2.file }) := by
        unfold Shared.step; dsimp only; rw [hd, u1]
      have e2 : Proc.call (fun _ => c) v5 ord ⟨16, fun _ => some { d with file := f }⟩ 0 (.append req io) =
          (.appended (Db.append (pageBackend c) ⟨tagHash v5 16, ord⟩ req io { d with file := f }).1,
            Proc.put ⟨16, fun _ => some { d with file := f }⟩ 0 (Db.append (pageBackend c) ⟨tagHash v5 16, ord⟩ req io { d with file := f }).2) := by
        unfold Proc.call; dsimp only; rw [hat]; rfl
      rw [e2] at hans hnew
      obtain ⟨s1, hs1, hl1⟩ := hnew _ (by unfold Proc.put; dsimp only; rw [if_pos rfl])
      subst hs1
      rw [e1]
      refine ⟨⟨some s1, some i, true⟩, ?_, ?_⟩
      · unfold Told
        dsimp only
        rw [if_pos hr]
        exact ⟨_, _, rfl, rfl, by rw [hdb]; rfl, by rw [hdb]; exact hans, rfl⟩
      · have hnc : ∀ j, willCreate (S.proc j) = false := fun j => by
          cases e : willCreate (S.proc j) with
          | false => rfl
          | true => have := h.fresh j e; rw [hdb] at this; cases this
        refine h.moved (i := i) (st := .up _) (f := (Db.append (pageBackend c) ⟨tagHash v5 16, ord⟩ req io { d with file := f }).2.file) rfl (h.lock.trans hr.1) rfl (.inr hr.1) (.inl ⟨rfl, rfl⟩)
          (by rw [u1]; simp) (fun n e => by cases e) (fun _ _ => rfl) (fun e => by cases e) (fun e => by cases e)
          (.inr fun j _ => ⟨hnc j, rfl⟩) (fun e => by cases e) (fun s2 e => ⟨fun d2 e2 => ?_, fun e => by cases e⟩)
        cases e; cases e2
        exact ⟨hl1, append_doubt hs.2 hdt⟩
    | read q st b l =>
      cases hx
      refine hsame (by unfold Shared.step; dsimp only; rw [hd, u1]) hans.1 (by unfold Proc.call; dsimp only; rw [hat]; rfl) fun P h1 h2 => h2 ?_
      unfold Told
      dsimp only
      rw [if_pos hr]
      exact h1
    | track src =>
      cases hx
      refine hsame (by unfold Shared.step; dsimp only; rw [hd, u1]) hans.1 (by unfold Proc.call; dsimp only; rw [hat]) fun P h1 h2 => h2 ?_
      unfold Told
      dsimp only
      rw [if_pos hr]
      exact h1
    | head =>
      cases hx
      refine hsame (by unfold Shared.step; dsimp only; rw [hd, u1]) hans.1 (by unfold Proc.call; dsimp only; rw [hat]) fun P h1 h2 => h2 ?_
      unfold Told
      dsimp only
      rw [if_pos hr]
      exact h1
  · have hnot : ∀ d, S.proc i ≠ .up d := fun d e => hr ((h.up i).mp ⟨d, e⟩)
    have hstill : S.step c ⟨tagHash v5 16, ord⟩ i a = (.still, S) := by
      cases a <;> cases hx <;> unfold Shared.step <;> dsimp only <;> split
      all_goals first
        | rfl
        | (next e _ => exact absurd e (hnot _))
    rw [hstill]
    refine ⟨O, ?_, h⟩
    cases a <;> cases hx <;> unfold Told <;> dsimp only <;> rw [if_neg hr] <;> exact ⟨rfl, rfl⟩

theorem Linked.lockless {S : Shared} {O : Office} (h : Linked hc v5 S O) {i : Nat} (hi : hasLock (S.proc i) = false) : O.holder ≠ some i := by
  intro e
  cases hr : O.ready with
  | false =>
    obtain ⟨n, hn⟩ := (h.locked i).mpr ⟨e, hr⟩
    rw [hn] at hi; cases hi
  | true =>
    obtain ⟨d, hd⟩ := (h.up i).mpr ⟨e, hr⟩
    rw [hd] at hi; cases hi

open Classical in
theorem Linked.step (ho : ∀ l, (ord l).Perm l) {S : Shared} {O : Office} (h : Linked hc v5 S O) {i : Nat} {a : ShareAct} (hs : Sound a)
    (hcalm : a = .look → S.file = none → ∀ j, j ≠ i → S.proc j ≠ .looked true) :
    ∃ O', Told (Accepted c.g.pageSize) O i a (S.step c ⟨tagHash v5 16, ord⟩ i a).1 O' ∧
      Linked hc v5 (S.step c ⟨tagHash v5 16, ord⟩ i a).2 O' := by
  cases a with
  | append req io => exact h.call ho rfl hs
  | read q st b l => exact h.call ho rfl hs
  | track src => exact h.call ho rfl hs
  | head => exact h.call ho rfl hs
  | look =>
    unfold Shared.step
    dsimp only
    split
    · next e =>
      refine ⟨O, ⟨rfl, rfl⟩, h.shift rfl rfl (by rw [e]; rfl) rfl (fun k => ?_) (fun _ k => ?_) (fun k => ?_) (.inl rfl)⟩
      · show S.file = none
        cases hf : S.file with
        | none => rfl
        | some f => rw [hf] at k; cases k
      · show S.file ≠ none
        intro hf
        rw [hf] at k
        exact k rfl
      · have hf : S.file = none := by
          cases hf : S.file with
          | none => rfl
          | some f => rw [hf] at k; cases k
        refine ⟨?_, fun j hj hw => ?_⟩
        · cases hdb : O.db with
          | none => rfl
          | some s =>
            obtain ⟨f, u1, -⟩ := h.used s hdb
            rw [hf] at u1; cases u1
        · by_cases hl : S.proc j = .looked true
          · exact hcalm rfl hf j hj hl
          · exact h.there j (fun e => by rw [e] at hw; cases hw) hl hf
    · exact ⟨O, ⟨rfl, rfl⟩, h⟩
  | openFile =>
    unfold Shared.step
    dsimp only
    split
    · next n e =>
      split
      · next f hf =>
        cases n with
        | true => have := h.looked i e; rw [hf] at this; cases this
        | false =>
          refine ⟨O, ⟨rfl, rfl⟩, h.shift rfl rfl (by rw [e]; rfl) rfl (fun k => by cases k) (fun _ _ => ?_) (fun k => by cases k) (.inl rfl)⟩
          show S.file ≠ none
          rw [hf]; simp
      · next hf =>
        cases n with
        | false => exact absurd hf (h.there i (by rw [e]; simp) (by rw [e]; simp))
        | true =>
          rw [if_pos rfl]
          have hw : willCreate (S.proc i) = true := by rw [e]; rfl
          refine ⟨O, ⟨rfl, rfl⟩, h.shift rfl rfl (by rw [e]; rfl) rfl (fun k => by cases k) (fun _ _ => by simp)
            (fun _ => ⟨h.fresh i hw, fun j hj k => hj (h.one j i k hw)⟩) (.inr ⟨hf, rfl, fun j hj k => hj (h.one j i (by rw [k]; rfl) hw)⟩)⟩
    · exact ⟨O, ⟨rfl, rfl⟩, h⟩
  | lock =>
    unfold Shared.step
    dsimp only
    split
    · next n e =>
      split
      · next k hk =>
        refine ⟨O, .inr (.inr ⟨⟨_, rfl⟩, ?_, h.lockless (by rw [e]; rfl), rfl⟩), h.shift rfl rfl (by rw [e]; rfl) rfl (fun k => by cases k)
          (fun k => absurd rfl k) (fun k => by cases k) (.inl rfl)⟩
        rw [← h.lock, hk]; simp
      · next hk =>
        have hh : O.holder = none := by rw [← h.lock]; exact hk
        have hfile := h.there i (by rw [e]; simp) (by rw [e]; simp)
        obtain ⟨f, hf⟩ := Option.ne_none_iff_exists'.mp hfile
        refine ⟨_, .inr (.inl ⟨rfl, hh, rfl⟩), h.moved (i := i) (st := .locked n) (f := f) rfl rfl hf (.inl hh) (.inl ⟨rfl, rfl⟩) hfile
          (fun _ _ => rfl) (fun _ k => by cases k) (fun k => by cases k) (fun k => by rw [e]; exact k) (.inl rfl) (fun k => ?_) (fun s k => ?_)⟩
        · rcases (h.blank k).1 with b | b
          · exact absurd b hfile
          · rw [hf] at b; cases b; exact ⟨rfl, rfl⟩
        · obtain ⟨f', u1, -, u3⟩ := h.used s k
          rw [hf] at u1; cases u1
          exact ⟨fun _ k => by (cases k), fun _ => u3 (h.idle hh)⟩
    · exact ⟨O, .inl ⟨rfl, rfl⟩, h⟩
  | init =>
    by_cases hr : O.holder = some i ∧ O.ready = false
    · obtain ⟨n, e⟩ := (h.locked i).mpr hr
      have hfile := h.there i (by rw [e]; simp) (by rw [e]; simp)
      obtain ⟨f, hf⟩ := Option.ne_none_iff_exists'.mp hfile
      have hps : 0 < c.g.pageSize := by have := hc.ps; omega
      have hlf : ∀ S' : Shared, S'.lock = (S.leave i).lock → S'.lock = none := by
        intro S' k
        rw [k]
        show (if S.lock = some i then none else S.lock) = none
        rw [if_pos (h.lock.trans hr.1)]
      unfold Shared.step
      dsimp only
      rw [e, hf]
      dsimp only
      cases hdb : O.db with
      | none =>
        have hfe : f = emptyFile := by
          rcases (h.blank hdb).1 with b | b
          · exact absurd b hfile
          · rw [hf] at b; cases b; rfl
        subst hfe
        cases n with
        | false =>
          obtain ⟨x, hx⟩ := openDb_blank hps
          rw [hx]
          refine ⟨⟨none, none, false⟩, ?_, h.moved (i := i) (st := .out) (f := emptyFile) rfl (hlf _ rfl) rfl (.inr hr.1) (.inr ⟨rfl, rfl, rfl⟩) hfile
            (fun _ k => by cases k) (fun _ k => by cases k) (fun k => by cases k) (fun k => by cases k) (.inl hdb.symm) (fun _ => ⟨rfl, rfl⟩) (fun s k => by cases k)⟩
          unfold Told
          dsimp only
          rw [if_pos hr]
          exact .inr ⟨⟨_, rfl⟩, hdb, rfl⟩
        | true =>
          obtain ⟨d, f', hx, hl, hdt, hdf⟩ := openDb_new (hc := hc) (tagHash v5 16)
          rw [hx]
          have hw : willCreate (S.proc i) = true := by rw [e]; rfl
          refine ⟨⟨some .empty, some i, true⟩, ?_, h.moved (i := i) (st := .up d) (f := f') rfl (h.lock.trans hr.1) rfl (.inr hr.1) (.inl ⟨rfl, rfl⟩) hfile
            (fun _ k => by cases k) (fun _ _ => rfl) (fun k => by cases k) (fun k => by cases k) (.inr fun j hj => ⟨?_, rfl⟩) (fun k => by cases k) (fun s k => ?_)⟩
          · unfold Told
            dsimp only
            rw [if_pos hr]
            exact .inl ⟨rfl, by rw [hdb]; rfl⟩
          · cases k : willCreate (S.proc j) with
            | false => rfl
            | true => exact absurd (h.one j i k hw) hj
          · cases k
            refine ⟨fun d2 k => ?_, fun k => by cases k⟩
            cases k
            rw [← hdf]
            exact ⟨hl, hdt⟩
      | some s =>
        obtain ⟨f0, u1, -, u3⟩ := h.used s hdb
        rw [hf] at u1; cases u1
        obtain ⟨d0, l0, t0, f0⟩ := u3 hr.2
        cases n with
        | true => have := h.fresh i (by rw [e]; rfl); rw [hdb] at this; cases this
        | false =>
          obtain ⟨d, f', hx, hl, hdt, hdf⟩ := openDb_live l0 t0
          rw [f0] at hx
          rw [hx]
          refine ⟨⟨some s, some i, true⟩, ?_, h.moved (i := i) (st := .up d) (f := f') rfl (h.lock.trans hr.1) rfl (.inr hr.1) (.inl ⟨rfl, rfl⟩) hfile
            (fun _ k => by cases k) (fun _ _ => rfl) (fun k => by cases k) (fun k => by cases k) (.inl hdb.symm) (fun k => by cases k) (fun s k => ?_)⟩
          · unfold Told
            dsimp only
            rw [if_pos hr]
            exact .inl ⟨rfl, by rw [hdb]; rfl⟩
          · cases k
            refine ⟨fun d2 k => ?_, fun k => by cases k⟩
            cases k
            rw [← hdf]
            exact ⟨hl, hdt⟩
    · have hstill : S.step c ⟨tagHash v5 16, ord⟩ i .init = (.still, S) := by
        unfold Shared.step
        dsimp only
        split
        · next e _ => exact absurd ((h.locked i).mp ⟨_, e⟩) hr
        · rfl
      rw [hstill]
      refine ⟨O, ?_, h⟩
      unfold Told
      dsimp only
      rw [if_neg hr]
      exact ⟨rfl, rfl⟩
  | stop =>
    by_cases hh : O.holder = some i
    · have hlk : hasLock (S.proc i) = true := by
        cases hr : O.ready with
        | false => obtain ⟨n, hn⟩ := (h.locked i).mpr ⟨hh, hr⟩; rw [hn]; rfl
        | true => obtain ⟨d, hd⟩ := (h.up i).mpr ⟨hh, hr⟩; rw [hd]; rfl
      have hfile := h.there i (fun e => by rw [e] at hlk; cases hlk) (fun e => by rw [e] at hlk; cases hlk)
      obtain ⟨f, hf⟩ := Option.ne_none_iff_exists'.mp hfile
      refine ⟨⟨O.db, none, false⟩, ⟨rfl, by rw [if_pos hh]⟩, h.moved (i := i) (st := .out) (f := f) rfl ?_ hf (.inr hh) (.inr ⟨rfl, rfl, rfl⟩) hfile
        (fun _ k => by cases k) (fun _ k => by cases k) (fun k => by cases k) (fun k => by cases k) (.inl rfl) (fun k => ?_) (fun s k => ⟨fun _ k => by (cases k), fun _ => ?_⟩)⟩
      · show (if S.lock = some i then none else S.lock) = none
        rw [if_pos (h.lock.trans hh)]
      · rcases (h.blank k).1 with b | b
        · exact absurd b hfile
        · rw [hf] at b; cases b; exact ⟨rfl, rfl⟩
      · obtain ⟨f', u1, u2, u3⟩ := h.used s k
        rw [hf] at u1; cases u1
        cases hr : O.ready with
        | false => exact u3 hr
        | true =>
          obtain ⟨d, hd⟩ := (h.up i).mpr ⟨hh, hr⟩
          exact ⟨_, (u2 i d hd).1, (u2 i d hd).2, rfl⟩
    · have hlk : hasLock (S.proc i) = false := by
        cases e : S.proc i with
        | locked n => exact absurd ((h.locked i).mp ⟨n, e⟩).1 hh
        | up d => exact absurd ((h.up i).mp ⟨d, e⟩).1 hh
        | out => rfl
        | looked n => rfl
        | opened n => rfl
      refine ⟨O, ⟨rfl, by rw [if_neg hh]⟩, h.shift rfl ?_ hlk rfl (fun k => by cases k) (fun k => absurd rfl k) (fun k => by cases k) (.inl rfl)⟩
      show (if S.lock = some i then none else S.lock) = S.lock
      rw [if_neg (by rw [h.lock]; exact hh)]

theorem steps_told (ho : ∀ l, (ord l).Perm l) : ∀ {xs : List (Nat × ShareAct)} {S : Shared} {O : Office}, Linked hc v5 S O → (∀ x ∈ xs, Sound x.2) →
    Calm c ⟨tagHash v5 16, ord⟩ xs S → ∃ O', ToldAll (Accepted c.g.pageSize) O xs (S.steps c ⟨tagHash v5 16, ord⟩ xs).1 O' ∧
      Linked hc v5 (S.steps c ⟨tagHash v5 16, ord⟩ xs).2 O'
  | [], _, O, h, _, _ => ⟨O, .nil O, h⟩
  | (i, a) :: xs, S, O, h, hs, hcalm => by
    obtain ⟨O1, h1, h2⟩ := h.step ho (i := i) (hs _ (.head _)) hcalm.1
    obtain ⟨O2, h3, h4⟩ := steps_told ho h2 (fun y hy => hs y (.tail _ hy)) hcalm.2
    exact ⟨O2, .cons h1 h3, h4⟩

end OneLog

/-- C72, what holds: any number of processes look for the file, open, lock, use and leave one path that did not exist at first, their
steps interleaved in any way, except that no two look in vain before the first has created the file.  There is one database: the answers
are those of one log that is passed from process to process, and opening it never changes it. -/
theorem C72_one_log_partial (hc : ConfOk c 16) {v5 : String → Uuid} {ord : List (String × List Nat) → List (String × List Nat)}
    (ho : ∀ l, (ord l).Perm l) {xs : List (Nat × ShareAct)} (hs : ∀ x ∈ xs, Sound x.2) (hcalm : Calm c ⟨tagHash v5 16, ord⟩ xs (.start none)) :
    ∃ O, ToldAll (Accepted c.g.pageSize) ⟨none, none, false⟩ xs ((Shared.start none).steps c ⟨tagHash v5 16, ord⟩ xs).1 O := by
  obtain ⟨O, h, -⟩ := steps_told (hc := hc) (v5 := v5) ho (S := .start none) (O := ⟨none, none, false⟩)
    ⟨rfl, fun i => ⟨fun ⟨_, e⟩ => by (cases e), fun ⟨e, _⟩ => by (cases e)⟩, fun i => ⟨fun ⟨_, e⟩ => by (cases e), fun ⟨e, _⟩ => by (cases e)⟩, fun _ => rfl,
      fun _ e => by (cases e), fun _ e => absurd rfl e, fun _ _ e => by (cases e), fun _ e => by (cases e), fun _ => ⟨.inl rfl, rfl⟩, fun _ e => by (cases e)⟩ hs hcalm
  exact ⟨O, h⟩

/-- A path that exists: nothing is asked of how steps are interleaved. -/
theorem calm_existing : ∀ {xs : List (Nat × ShareAct)} {S : Shared}, S.file ≠ none → Calm c env xs S
  | [], _, _ => trivial
  | (i, a) :: xs, S, h => by
    refine ⟨fun _ e => absurd e h, calm_existing ?_⟩
    cases a <;> unfold Shared.step <;> dsimp only
    all_goals first
      | exact h
      | (split <;> exact h)
      | skip
    · split
      · split
        · exact h
        · split
          · simp
          · exact h
      · exact h
    · split
      · split
        · exact h
        · exact h
      · exact h
    · split
      · split
        · simp
        · simp
      · exact h
    · split
      · simp
      · exact h

/-- The same on a path with the file that a database holding `s` has left: the answers are those of one log that begins with `s`. -/
theorem C72_existing (hc : ConfOk c 16) {v5 : String → Uuid} {ord : List (String × List Nat) → List (String × List Nat)}
    (ho : ∀ l, (ord l).Perm l) {d : PDb} {s : Spec.Db} (hd : (pageLawful hc (tagHash_normalized v5 (.inl rfl))).RepD d s) (hdt : d.doubt = false)
    {xs : List (Nat × ShareAct)} (hs : ∀ x ∈ xs, Sound x.2) :
    ∃ O, ToldAll (Accepted c.g.pageSize) ⟨some s, none, false⟩ xs ((Shared.start (some d.file)).steps c ⟨tagHash v5 16, ord⟩ xs).1 O := by
  obtain ⟨O, h, -⟩ := steps_told (hc := hc) (v5 := v5) ho (S := .start (some d.file)) (O := ⟨some s, none, false⟩)
    ⟨rfl, fun i => ⟨fun ⟨_, e⟩ => by (cases e), fun ⟨e, _⟩ => by (cases e)⟩, fun i => ⟨fun ⟨_, e⟩ => by (cases e), fun ⟨e, _⟩ => by (cases e)⟩, fun _ => rfl,
      fun _ e => by (cases e), fun _ e => absurd rfl e, fun _ _ e => by (cases e), fun _ e => by (cases e), fun e => by (cases e),
      fun s' e => ⟨d.file, rfl, fun _ _ e => by (cases e), fun _ => ⟨d, by cases e; exact hd, hdt, rfl⟩⟩⟩ hs (calm_existing (by simp [Shared.start]))
  exact ⟨O, h⟩

/-! ## What goes wrong on a new path -/

/-- The file is there and empty, and no process will make a database of it. -/
structure Stuck (S : Shared) : Prop where
  file : S.file = some emptyFile
  proc : ∀ i, willCreate (S.proc i) = false ∧ ∀ d, S.proc i ≠ .up d

theorem Stuck.change {S S' : Shared} (h : Stuck S) {i : Nat} {st : Standing} (hp : S'.proc = (S.set i st).proc) (hf : S'.file = some emptyFile)
    (h1 : willCreate st = false) (h2 : ∀ d, st ≠ .up d) : Stuck S' := by
  refine ⟨hf, fun j => ?_⟩
  rw [hp, set_proc]
  split
  · exact ⟨h1, h2⟩
  · exact h.proc j

theorem Stuck.step (hps : 0 < c.g.pageSize) {S : Shared} (h : Stuck S) (i : Nat) (a : ShareAct) :
    Stuck (S.step c env i a).2 ∧ (S.step c env i a).1 ≠ .opened (.ok ()) := by
  have hi := h.proc i
  have hcall : ∀ {a}, (asCall a).isSome → S.step c env i a = (.still, S) := by
    intro a ha
    cases a with
    | look => cases ha
    | openFile => cases ha
    | lock => cases ha
    | init => cases ha
    | stop => cases ha
    | _ => unfold Shared.step; dsimp only; split <;> first | (next e _ => exact absurd e (hi.2 _)) | rfl
  cases a with
  | append req io => rw [hcall rfl]; exact ⟨h, by simp⟩
  | read q st b l => rw [hcall rfl]; exact ⟨h, by simp⟩
  | track src => rw [hcall rfl]; exact ⟨h, by simp⟩
  | head => rw [hcall rfl]; exact ⟨h, by simp⟩
  | stop => exact ⟨h.change rfl h.file rfl (fun _ e => by cases e), fun e => by cases e⟩
  | look =>
    unfold Shared.step
    dsimp only
    split
    · exact ⟨h.change rfl h.file (by rw [h.file]; rfl) (fun _ e => by cases e), by simp⟩
    · exact ⟨h, by simp⟩
  | openFile =>
    unfold Shared.step
    dsimp only
    split
    · next n e =>
      rw [h.file]
      exact ⟨h.change rfl h.file (by rw [e] at hi; exact hi.1) (fun _ e => by cases e), by simp⟩
    · exact ⟨h, by simp⟩
  | lock =>
    unfold Shared.step
    dsimp only
    split
    · next n e =>
      split
      · exact ⟨h.change rfl h.file rfl (fun _ e => by cases e), by simp⟩
      · exact ⟨h.change rfl h.file (by rw [e] at hi; exact hi.1) (fun _ e => by cases e), by simp⟩
    · exact ⟨h, by simp⟩
  | init =>
    unfold Shared.step
    dsimp only
    split
    · next n f e hf =>
      rw [h.file] at hf
      cases hf
      have hn : n = false := by rw [e] at hi; exact hi.1
      subst hn
      obtain ⟨x, hx⟩ := openDb_blank hps
      rw [hx]
      exact ⟨h.change rfl rfl rfl (fun _ e => by cases e), by simp⟩
    · exact ⟨h, by simp⟩

theorem Stuck.steps (hps : 0 < c.g.pageSize) : ∀ (xs : List (Nat × ShareAct)) {S : Shared}, Stuck S →
    ∀ r ∈ (S.steps c env xs).1, r.2 ≠ .opened (.ok ())
  | [], _, _, r, hr => by cases hr
  | (i, a) :: xs, S, h, r, hr => by
    obtain ⟨h1, h2⟩ := h.step (c := c) (env := env) hps i a
    rcases List.mem_cons.mp hr with rfl | hr
    · exact h2
    · exact Stuck.steps hps xs h1 r hr

/-- Process 0 finds no file and creates it; before it has locked it, process 1 finds, opens and locks it. -/
def exBothFail : List (Nat × ShareAct) := [(0, .look), (0, .openFile), (1, .look), (1, .openFile), (1, .lock), (0, .lock), (1, .init)]

/-- Two processes open a new path at the same time: process 0 is refused because process 1 has the lock, and process 1 because the file is
empty.  No process will ever open a database at this path again. -/
theorem C72_both_fail_false (hps : 0 < c.g.pageSize) : ∃ e e',
    ((Shared.start none).steps c env exBothFail).1 = [(0, .still), (0, .still), (1, .still), (1, .still), (1, .still),
      (0, .opened (.error (.initialization e))), (1, .opened (.error e'))] ∧
    ∀ xs, ∀ r ∈ (((Shared.start none).steps c env exBothFail).2.steps c env xs).1, r.2 ≠ .opened (.ok ()) := by
  obtain ⟨e', he⟩ := openDb_blank hps
  refine ⟨"Database file is already locked", e', ?_, fun xs => Stuck.steps hps xs ?_⟩
  · simp [exBothFail, Shared.steps, Shared.step, Shared.start, Shared.set, Shared.leave, he]
  · refine ⟨?_, fun i => ?_⟩
    · simp [exBothFail, Shared.steps, Shared.step, Shared.start, Shared.set, Shared.leave, he]
    · simp [exBothFail, Shared.steps, Shared.step, Shared.start, Shared.set, Shared.leave, he]
      by_cases h1 : i = 1 <;> by_cases h0 : i = 0 <;> simp [h1, h0, willCreate]

/-- Creating a database in a file that is not empty. -/
theorem create_over {g : Pager} (hps : 71 ≤ g.pageSize ∧ g.pageSize ≤ 2 ^ 32) (zero : Bool) {f0 : File} (hz0 : f0.Zeroed) :
    ∃ m f, create g zero f0 = (.ok m, f) ∧ Current g f m 0 initialHeader ∧
      readPage g 16 1 f = .ok (.header initialHeader) ∧ ∀ p ∈ initialPages, readPage g 16 p.1 f = .ok p.2 := by
  obtain ⟨h1, hz, h2⟩ : (createPages g zero f0).1 = .ok 3 ∧ (createPages g zero f0).2.Zeroed ∧
      ∀ p ∈ initialPages, readPage g 16 p.1 (createPages g zero f0).2 = .ok p.2 := by
    have hn : (initialPages.map (·.1)).Nodup := by decide
    obtain ⟨h1, h2⟩ := C42_all_written (kw := tagHashLen) (by decide) hps.2 zero initialPages f0 hz0 hn
      fun p hp => ⟨(initial_fits p hp).1, by have := (initial_fits p hp).2; omega⟩
    refine ⟨h1, ?_, h2⟩
    have hp : (chunkBy adjacent (sortBy byId initialPages)).flatten.Perm initialPages := by
      rw [chunkBy_flatten]; exact sortBy_perm _ _
    exact (writeChunks_spec g tagHashLen zero (chunkBy adjacent (sortBy byId initialPages)) 0 f0 hz0
      (chunkBy_chunk _) ((hp.map (·.1)).nodup_iff.mpr hn)).2.1
  rcases hcp : createPages g zero f0 with ⟨r, f1⟩
  rw [hcp] at h1 hz h2
  simp only at h1 hz h2
  subst h1
  obtain ⟨b, hb⟩ := header_serializes (kw := tagHashLen) (by decide) (buf := List.replicate g.pageSize 0)
    (by simp; exact hps.1) zero initialHeader
  have hbl : b.length = g.pageSize := by rw [serializePage_length hb]; simp
  obtain ⟨f2, hw2, hwr2⟩ := writeOnePage_spec (id := 1) (kw := tagHashLen) (by decide) (by simp) hps.2 hz
    (initialHeader_fits _) hb
  obtain ⟨b', hb'⟩ := header_serializes (kw := tagHashLen) (by decide) (buf := b) (by omega) zero initialHeader
  obtain ⟨f3, hw3, hwr3⟩ := writeOnePage_spec (id := 0) (kw := tagHashLen) (by decide) hbl hps.2 hwr2.zeroed
    (initialHeader_fits _) hb'
  have hkeep := hwr3.keep (by decide) hwr2.read
  have hpages : ∀ p ∈ initialPages, readPage g 16 p.1 f3 = .ok p.2 := by
    intro p hp
    have hne : p.1 ≠ 0 ∧ p.1 ≠ 1 := by
      simp only [initialPages, List.mem_cons, List.not_mem_nil, or_false] at hp
      rcases hp with rfl | rfl | rfl <;> decide
    exact hwr3.keep hne.1 (hwr2.keep hne.2 (h2 p hp))
  refine ⟨⟨⟨0, .header initialHeader⟩, ⟨1, .header initialHeader⟩, tagHashLen⟩, f3, ?_,
    ⟨.inl rfl, rfl, hwr3.read, rfl, hwr3.zeroed⟩, hkeep, hpages⟩
  unfold create
  rw [hcp]
  simp only [createHeaders, hw2, hb, hw3]

theorem openDb_over (hc : ConfOk c 16) (H : String → TagHash) {f0 : File} (hz : f0.Zeroed) :
    ∃ d f, openDb c true f0 = (.ok d, f) ∧ Live c hc H d .empty ∧ d.doubt = false ∧ d.file = f := by
  obtain ⟨m, f, h1, h2, h3, h5⟩ := create_over (g := c.g) ⟨by have := hc.ps; omega, hc.big⟩ c.zeroFill
    (f0 := { f0 with known := f0.len }) hz
  have hps := hc.ps
  refine ⟨_, _, ?_, ⟨_, _, _, _, _, _, _, _, live_initial hc H h2 h5 f [] none, ?_⟩, rfl, rfl⟩
  · unfold openDb
    dsimp only
    rw [if_pos rfl, h1]
    rfl
  have hkw : m.kw = 16 := by rw [h2.width]; rfl
  have hlen := readPage_len h3 (by omega)
  have hother : OtherOk c.g f 1 initialHeader := .inr ⟨_, readPage_header_width h3, .inr rfl⟩
  refine ⟨.inr ⟨rfl, rfl⟩, .refl h2.zeroed, by simp [PDb.fresh], ?_, h2.zeroed, ?_, ?_, fun _ => ⟨hother, hother⟩⟩
  · show 2 * c.g.pageSize ≤ f.len
    omega
  · exact readPage_header_width h2.onDisk
  · intro p n hpn
    refine h5 (p, n) ?_
    simp at hpn; simp [initialPages]; tauto

/-- Whatever a database at this path held: when a process that had found no file gets the lock after it, the database is made anew, and is
empty. -/
theorem C72_overwrites (hc : ConfOk c 16) (he : EnvOk env) (hH : ∀ t, NormalizedTo 16 (env.H t)) {S : Shared} {i : Nat} (hi : S.proc i = .locked true)
    {d : PDb} {s : Spec.Db} (hd : (pageLawful hc hH).RepD d s) (hf : S.file = some d.file) :
    (S.step c env i .init).1 = .opened (.ok ()) ∧
    ((S.step c env i .init).2.step c env i (.read none none false none)).1 = .said (.events (.ok ([], none))) ∧
    ((S.step c env i .init).2.step c env i .head).1 = .said (.head none) := by
  have hz : d.file.Zeroed := by
    obtain ⟨hp, h, PE, PT, PK, PF, ix, F, L, S⟩ := hd
    exact L.zeroed
  obtain ⟨d', f', h1, h2, -, h4⟩ := openDb_over hc env.H hz
  have e1 : S.step c env i .init = (.opened (.ok ()), { S.set i (.up d') with file := some f' }) := by
    unfold Shared.step
    dsimp only
    rw [hi, hf]
    dsimp only
    rw [h1]
  have e2 : ({ d' with file := f' } : PDb) = d' := by rw [← h4]
  have hrep : (pageLawful hc hH).RepD d' .empty := h2
  have hat : ({ S.set i (.up d') with file := some f' } : Shared).proc i = .up d' := by
    show (if i = i then Standing.up d' else S.proc i) = _
    rw [if_pos rfl]
  rw [e1]
  refine ⟨rfl, ?_, ?_⟩
  · unfold Shared.step
    dsimp only
    rw [hat]
    dsimp only
    rw [e2]
    obtain ⟨h', hr⟩ := C07_forward_read he (pageLawful hc hH) hrep none none none
    have hh : h' = none := by
      unfold Db.read at hr
      split at hr
      · cases hr
      · cases hr
        rw [(pageLawful hc hH).nextPosR hrep]
        rfl
    rw [hr, hh]
    rfl
  · unfold Shared.step
    dsimp only
    rw [hat]
    dsimp only
    rw [e2]
    unfold Db.head
    rw [(pageLawful hc hH).nextPosR hrep]
    rfl

/-! ## Concrete cases -/

theorem exReq_afterOk : AfterOk exReq := exReq_after ⟨1, exReq, noCancel⟩ (by simp [appendJobs])

open Classical in
/-- A new database, and the request `exReq`. -/
theorem exBegun : ∃ (d dA : PDb), openDb exConf true emptyFile = (.ok d, d.file) ∧ Db.append (pageBackend exConf) exConstEnv exReq exIO d = (.ok 2, dA) ∧
    (pageLawful exConf_ok exConstEnv_width).RepD dA exAfter ∧ dA.doubt = false := by
  obtain ⟨d, dA, w, h1, h2, -⟩ := exCreated
  obtain ⟨m, f, hcr, hl⟩ := create_live exConf_ok exConstEnv.H
  have hcr' : create exConf.g exConf.zeroFill emptyFile = (.ok m, f) := hcr
  have hd : d = .fresh f m f [] none := by
    unfold Proc.call at h1
    dsimp only at h1
    rw [show create (exConfs 0).g (exConfs 0).zeroFill emptyFile = (.ok m, f) from hcr] at h1
    dsimp only at h1
    have := congrArg (fun x : ProcReply × Proc => x.2.db 0) h1
    simp [Proc.put] at this
    exact this.symm
  subst hd
  have hd0 : (pageLawful exConf_ok exConstEnv_width).RepD (.fresh f m f [] none) Spec.Db.empty := hl none
  have hat : atWidth 16 (PDb.fresh f m f [] none) = .fresh f m f [] none := atWidth_live hd0
  have happ : Db.append (pageBackend exConf) exConstEnv exReq exIO (.fresh f m f [] none) = (.ok 2, dA) := by
    unfold Proc.call at h2
    dsimp only at h2
    rw [if_pos rfl] at h2
    dsimp only at h2
    rw [exEnv_at, exV5_hash, hat] at h2
    have e1 := congrArg (fun x : ProcReply × Proc => x.1) h2
    have e2 := congrArg (fun x : ProcReply × Proc => x.2.db 0) h2
    simp only [Proc.put, if_true] at e1 e2
    rw [show exConfs 0 = exConf from rfl] at e1 e2
    exact Prod.ext (ProcReply.appended.inj e1) (Option.some.inj e2)
  have hadt := append_doubt (c := exConf) (env := exConstEnv) (req := exReq) (io := exIO) (d := .fresh f m f [] none) (fun _ => by simp [exIO]) rfl
  refine ⟨.fresh f m f [] none, dA, ?_, happ, ?_, by rw [happ] at hadt; exact hadt⟩
  · unfold openDb
    dsimp only
    rw [if_pos rfl, show ({ emptyFile with known := emptyFile.len } : File) = emptyFile from rfl, hcr']
    rfl
  · rcases api_append_spec ⟨fun l => List.Perm.refl l⟩ (pageLawful exConf_ok exConstEnv_width) hd0
      exReq_afterOk (by simp [exReq]) exIO with ⟨-, k⟩ | ⟨e, k, -⟩
    · rw [happ, exAppended] at k; exact k
    · rw [happ] at k; cases k

/-- Process 0 finds no file.  Process 1 finds none either, creates the database, is told that two events are in it, and leaves.  Process 0
goes on. -/
def exRace : List (Nat × ShareAct) :=
  [(0, .look), (1, .look), (1, .openFile), (1, .lock), (1, .init), (1, .append exReq exIO), (1, .stop), (0, .openFile), (0, .lock), (0, .init),
    (0, .read none none false none)]

/-- The claim fails for a new path: acknowledged events are gone. -/
theorem C72_false : ((Shared.start none).steps exConf exConstEnv exRace).1 =
    [(0, .still), (1, .still), (1, .still), (1, .still), (1, .opened (.ok ())), (1, .said (.appended (.ok 2))), (1, .still), (0, .still), (0, .still),
      (0, .opened (.ok ())), (0, .said (.events (.ok ([], none))))] := by
  obtain ⟨d, dA, h1, h2, h3, -⟩ := exBegun
  have h2' : Db.append (pageBackend exConf) exConstEnv exReq exIO { d with file := d.file } = (.ok 2, dA) := h2
  have hpre : (Shared.start none).steps exConf exConstEnv (exRace.take 9) =
      ([(0, .still), (1, .still), (1, .still), (1, .still), (1, .opened (.ok ())), (1, .said (.appended (.ok 2))), (1, .still), (0, .still), (0, .still)],
        ((Shared.start none).steps exConf exConstEnv (exRace.take 9)).2) ∧
      ((Shared.start none).steps exConf exConstEnv (exRace.take 9)).2.proc 0 = .locked true ∧
      ((Shared.start none).steps exConf exConstEnv (exRace.take 9)).2.file = some dA.file := by
    simp [exRace, Shared.steps, Shared.step, Shared.start, Shared.set, Shared.leave, h1, h2']
  obtain ⟨p1, p2, p3⟩ := hpre
  obtain ⟨o1, o2, -⟩ := C72_overwrites exConf_ok (env := exConstEnv) ⟨fun l => List.Perm.refl l⟩ exConstEnv_width p2 h3 p3
  rw [show exRace = exRace.take 9 ++ [(0, .init), (0, .read none none false none)] from rfl, steps_append, p1]
  simp only [Shared.steps]
  rw [o1, o2]
  rfl

/-- Process 0 creates the database and is told that two events are in it.  Process 1, which looks while process 0 is at it, is refused the
lock, tries again when process 0 has left, and is told of the events. -/
def exHandover : List (Nat × ShareAct) :=
  [(0, .look), (0, .openFile), (1, .look), (0, .lock), (1, .openFile), (1, .lock), (0, .init), (0, .append exReq exIO), (0, .stop), (1, .look), (1, .openFile),
    (1, .lock), (1, .init), (1, .head)]

theorem exHandover_calm : Calm exConf exConstEnv exHandover (.start none) := by
  refine ⟨fun _ _ j hj => ?_, fun e => (by cases e), ?_⟩
  · simp [Shared.start]
  · exact calm_existing (by simp [Shared.step, Shared.start, Shared.set])

example : (∀ x ∈ exHandover, Sound x.2) ∧ Calm exConf exConstEnv exHandover (.start none) ∧
    ((Shared.start none).steps exConf exConstEnv exHandover).1 =
      [(0, .still), (0, .still), (1, .still), (0, .still), (1, .still), (1, .opened (.error (.initialization "Database file is already locked"))),
        (0, .opened (.ok ())), (0, .said (.appended (.ok 2))), (0, .still), (1, .still), (1, .still), (1, .still), (1, .opened (.ok ())),
        (1, .said (.head (some 2)))] := by
  refine ⟨?_, exHandover_calm, ?_⟩
  · intro x hx
    simp only [exHandover, List.mem_cons, List.not_mem_nil, or_false] at hx
    rcases hx with rfl | rfl | rfl | rfl | rfl | rfl | rfl | rfl | rfl | rfl | rfl | rfl | rfl | rfl <;> first | trivial | skip
    exact ⟨exReq_afterOk, fun _ => by simp [exIO]⟩
  · obtain ⟨d, dA, h1, h2, h3, h4⟩ := exBegun
    have h2' : Db.append (pageBackend exConf) exConstEnv exReq exIO { d with file := d.file } = (.ok 2, dA) := h2
    obtain ⟨d', f', k1, k2, -, k4⟩ := openDb_live (hc := exConf_ok) (H := exConstEnv.H) h3 h4
    have k5 : Db.head (pageBackend exConf) { d' with file := f' } = some 2 := by
      rw [← k4]
      have k2 : (pageLawful exConf_ok exConstEnv_width).RepD d' exAfter := k2
      unfold Db.head
      rw [show (pageBackend exConf).nextPosR { d' with file := d'.file } = _ from (pageLawful exConf_ok exConstEnv_width).nextPosR k2]
      rfl
    simp [exHandover, Shared.steps, Shared.step, Shared.start, Shared.set, Shared.leave, h1, h2', k1, k5]

/-- And for C72_exclusive: process 1 is about to lock the file while process 0 has the database open. -/
example : ∃ d, ((Shared.start none).steps exConf exConstEnv (exRace.take 5)).2.proc 1 = .up d ∧
    ((Shared.start none).steps exConf exConstEnv (exRace.take 5)).2.proc 0 = .looked true := by
  obtain ⟨d, dA, h1, -⟩ := exBegun
  exact ⟨d, by simp [exRace, Shared.steps, Shared.step, Shared.start, Shared.set, h1]⟩

end Uma.Props
