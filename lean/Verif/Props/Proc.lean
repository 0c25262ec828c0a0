import Verif.Page.Proc
import Verif.Props.FailedHeader

/-!
# C70: databases of one process
-/

namespace Uma.Props
open Uma.Spec Uma.Db Uma.Page Uma.Mvcc Uma.Codec

variable {conf : Nat → Conf} {v5 : String → Uuid} {ord : List (String × List Nat) → List (String × List Nat)}

/-- The call does not change the width `w` of the process: nothing is opened or created that uses another one. -/
def KeepsWidth (conf : Nat → Conf) (w : Nat) : Nat × ProcCall → Prop
  | (_, .create) => w = 16
  | (i, .openFile f) => widthLeft (conf i).g w (conf i).zeroFill f = w
  | _ => True

theorem atWidth_live {c : Conf} {hc : ConfOk c 16} {H : String → TagHash} {hH : ∀ t, NormalizedTo 16 (H t)} {d : PDb} {s : Spec.Db}
    (h : (pageLawful hc hH).RepD d s) : atWidth 16 d = d := by
  obtain ⟨_, _, _, _, _, _, _, _, L, S⟩ := h
  unfold atWidth
  rw [← L.width]

theorem call_width {w i : Nat} {x : ProcCall} (h : KeepsWidth conf w (i, x)) {P : Proc} (hP : P.width = w) :
    (P.call conf v5 ord i x).2.width = w := by
  cases x with
  | create =>
    have h : w = 16 := h
    unfold Proc.call
    dsimp only
    split <;> exact h.symm
  | openFile f =>
    have h : widthLeft (conf i).g w (conf i).zeroFill f = w := h
    rw [← hP] at h
    unfold Proc.call
    dsimp only
    split <;> exact h.trans hP
  | append req io => unfold Proc.call; dsimp only; split <;> exact hP
  | read q s b l => unfold Proc.call; dsimp only; split <;> exact hP
  | track s => unfold Proc.call; dsimp only; split <;> exact hP
  | head => unfold Proc.call; dsimp only; split <;> exact hP

/-- A call concerns its own database only. -/
theorem call_other {i j : Nat} (hj : j ≠ i) (x : ProcCall) (P : Proc) : (P.call conf v5 ord i x).2.db j = P.db j := by
  cases x <;> unfold Proc.call <;> dsimp only <;> split <;> simp [Proc.put, hj]

/-- What a call does depends on the width and its own database only. -/
theorem call_same {P P' : Proc} (hw : P.width = P'.width) {i : Nat} (hd : P.db i = P'.db i) (x : ProcCall) :
    (P.call conf v5 ord i x).1 = (P'.call conf v5 ord i x).1 ∧ (P.call conf v5 ord i x).2.db i = (P'.call conf v5 ord i x).2.db i := by
  have he : P.env v5 ord = P'.env v5 ord := by unfold Proc.env; rw [hw]
  cases x with
  | create =>
    unfold Proc.call
    dsimp only
    split
    · exact ⟨rfl, hd⟩
    · simp [Proc.put]
  | openFile f =>
    unfold Proc.call
    dsimp only
    rw [hw]
    split
    · exact ⟨rfl, hd⟩
    · simp [Proc.put]
  | append req io =>
    unfold Proc.call
    dsimp only
    rw [hd, hw, he]
    split
    · next h => rw [h] at hd; exact ⟨rfl, by rw [hd, h]⟩
    · simp [Proc.put]
  | read q s b l =>
    unfold Proc.call
    dsimp only
    rw [hd, hw, he]
    split
    · next h => rw [h] at hd; exact ⟨rfl, by rw [hd, h]⟩
    · next h => rw [h] at hd; exact ⟨rfl, by rw [hd, h]⟩
  | track s =>
    unfold Proc.call
    dsimp only
    rw [hd, hw]
    split
    · next h => rw [h] at hd; exact ⟨rfl, by rw [hd, h]⟩
    · next h => rw [h] at hd; exact ⟨rfl, by rw [hd, h]⟩
  | head =>
    unfold Proc.call
    dsimp only
    rw [hd, hw]
    split
    · next h => rw [h] at hd; exact ⟨rfl, by rw [hd, h]⟩
    · next h => rw [h] at hd; exact ⟨rfl, by rw [hd, h]⟩

theorem calls_append : ∀ (xs ys : List (Nat × ProcCall)) (P : Proc), P.calls conf v5 ord (xs ++ ys) =
    ((P.calls conf v5 ord xs).1 ++ ((P.calls conf v5 ord xs).2.calls conf v5 ord ys).1, ((P.calls conf v5 ord xs).2.calls conf v5 ord ys).2)
  | [], _, _ => rfl
  | (i, x) :: xs, ys, P => by
    simp only [List.cons_append, Proc.calls]
    rw [calls_append xs ys]

theorem calls_alone {w i : Nat} : ∀ {xs : List (Nat × ProcCall)} {P P' : Proc}, (∀ x ∈ xs, KeepsWidth conf w x) → P.width = w → P'.width = w →
    P.db i = P'.db i →
    (P.calls conf v5 ord xs).1.filter (fun r => r.1 = i) = (P'.calls conf v5 ord (xs.filter fun x => x.1 = i)).1 ∧
    (P.calls conf v5 ord xs).2.db i = (P'.calls conf v5 ord (xs.filter fun x => x.1 = i)).2.db i
  | [], _, _, _, _, _, hd => ⟨rfl, hd⟩
  | (j, x) :: xs, P, P', h, hP, hP', hd => by
    have hw := call_width (v5 := v5) (ord := ord) (h _ (.head _)) hP
    by_cases hj : j = i
    · subst hj
      obtain ⟨h1, h2⟩ := call_same (conf := conf) (v5 := v5) (ord := ord) (hP.trans hP'.symm) hd x
      have hw' := call_width (v5 := v5) (ord := ord) (h _ (.head _)) hP'
      obtain ⟨h3, h4⟩ := calls_alone (fun y hy => h y (.tail _ hy)) hw hw' h2
      simp only [Proc.calls, List.filter_cons, decide_true, if_true]
      exact ⟨by rw [h1, h3], h4⟩
    · obtain ⟨h3, h4⟩ := calls_alone (fun y hy => h y (.tail _ hy)) hw hP' ((call_other (fun e => hj e.symm) x P).trans hd)
      simp only [Proc.calls, List.filter_cons, hj, decide_false, Bool.false_eq_true, if_false]
      exact ⟨h3, h4⟩

/-- Databases of one process do not influence each other as long as none of another format is opened: each gets the replies it would get
in a process of its own, and its state is the same. -/
theorem C70_alone_partial {xs : List (Nat × ProcCall)} (h : ∀ x ∈ xs, KeepsWidth conf 16 x) (i : Nat) :
    (Proc.start.calls conf v5 ord xs).1.filter (fun r => r.1 = i) =
      (Proc.start.calls conf v5 ord (xs.filter fun x => x.1 = i)).1 ∧
    (Proc.start.calls conf v5 ord xs).2.db i = (Proc.start.calls conf v5 ord (xs.filter fun x => x.1 = i)).2.db i :=
  calls_alone h rfl rfl rfl

/-- The same for a process that has so far opened files of the old format only. -/
theorem C70_old_partial {xs : List (Nat × ProcCall)} {w : Nat} (h : ∀ x ∈ xs, KeepsWidth conf w x) {P : Proc} (hP : P.width = w) (i : Nat) :
    (P.calls conf v5 ord xs).1.filter (fun r => r.1 = i) = (P.calls conf v5 ord (xs.filter fun x => x.1 = i)).1 ∧
    (P.calls conf v5 ord xs).2.db i = (P.calls conf v5 ord (xs.filter fun x => x.1 = i)).2.db i :=
  calls_alone h hP hP rfl

/-- Opening a file with success leaves the width of that file's format, and the database is worked on with it. -/
theorem C70_width {P : Proc} {i : Nat} {f f' : File} {m : Opened} (h : openExisting (conf i).g P.width (conf i).zeroFill f = (.ok m, f')) :
    (P.call conf v5 ord i (.openFile f)).2.width = m.kw ∧
    ((P.call conf v5 ord i (.openFile f)).2.db i).map (atWidth m.kw) = some (.fresh f' m f' [] none) := by
  have hw : widthLeft (conf i).g P.width (conf i).zeroFill f = m.kw := by
    unfold openExisting at h
    unfold widthLeft
    cases e : openHeaders (conf i).g P.width (conf i).zeroFill f with
    | mk r f1 =>
      rw [e] at h
      cases r with
      | error e => cases h
      | ok hh =>
        obtain ⟨h0, h1⟩ := hh
        dsimp only at h ⊢
        simp only [Prod.mk.injEq] at h
        obtain ⟨h, -⟩ := h
        cases e1 : latestPage h0 h1 with
        | error e => rw [e1] at h; cases h
        | ok p =>
          rw [e1] at h
          simp only [bind, Except.bind] at h ⊢
          cases e2 : asHeader p.node with
          | error e => rw [e2] at h; cases h
          | ok hd =>
            rw [e2] at h
            simp only at h ⊢
            cases e3 : checkDatabase (conf i).g f1 hd with
            | error e => rw [e3] at h; cases h
            | ok kw =>
              rw [e3] at h
              cases h
              unfold checkDatabase at e3
              split at e3
              · cases e3
              · next hs =>
                rw [if_neg hs]
                split at e3
                · cases e3
                · simp only [bind, Except.bind] at e3
                  split at e3
                  · cases e3
                  split at e3
                  · cases e3
                  split at e3
                  · cases e3
                  split at e3
                  · cases e3
                  · cases e3; rfl
  unfold Proc.call
  dsimp only
  rw [h]
  refine ⟨hw, ?_⟩
  simp [Proc.put, atWidth, PDb.fresh]

/-- What a database that holds `s` (`none`: not open) may reply, and what it holds afterwards. -/
def Answered (valid : Record → Prop) [DecidablePred valid] (s : Option Spec.Db) : ProcCall → ProcReply → Option Spec.Db → Prop
  | .create, r, s' => r = .opened (.ok ()) ∧ s' = some .empty
  | .openFile _, _, _ => False
  | .append req _, r, s' =>
    match s with
    | none => r = .notOpen ∧ s' = none
    | some a =>
      (req.events = [] ∧ r = .appended (.ok 0) ∧ s' = some a) ∨
      (req.events ≠ [] ∧ ∃ x, r = .appended x ∧ Says x (Spec.append valid a req).1 ∧ s' = some (Spec.append valid a req).2) ∨
      (req.events ≠ [] ∧ ∃ e, r = .appended (.error e) ∧ Fatal e ∧ (s' = some a ∨ s' = some (Spec.append valid a req).2))
  | .read query start backwards limit, r, s' =>
    s' = s ∧
    match s with
    | none => r = .notOpen
    | some a => ∃ h, r = .events (.ok (applyLimit limit
        (let l := (sequenced a.log).filter fun e => start.all (fun st => if backwards then decide (e.position ≤ st) else decide (st ≤ e.position)) &&
          decide (Matches (query.getD ⟨[]⟩) e.event)
         if backwards then l.reverse else l), h)) ∧ (limit = none → h = if a.log = [] then none else some a.log.length)
  | .track source, r, s' => s' = s ∧ r = match s with
    | none => .notOpen
    | some a => .tracked (.ok (a.track source))
  | .head, r, s' => s' = s ∧ r = match s with
    | none => .notOpen
    | some a => .head (if a.log = [] then none else some a.log.length)

open Classical in
/-- A run in which database `i` holds `S i` at first. -/
inductive AnsweredAll (valid : Nat → Record → Prop) : (Nat → Option Spec.Db) → List (Nat × ProcCall) → List (Nat × ProcReply) →
    (Nat → Option Spec.Db) → Prop
  | nil (S) : AnsweredAll valid S [] [] S
  | cons {S i x r s' xs rs S'} : Answered (valid i) (S i) x r s' → AnsweredAll valid (fun j => if j = i then s' else S j) xs rs S' →
      AnsweredAll valid S ((i, x) :: xs) ((i, r) :: rs) S'

/-- A call that opens no file; positions in conditions as in C03. -/
def Plain : ProcCall → Prop
  | .openFile _ => False
  | .append req _ => AfterOk req
  | _ => True

theorem headOfNext_length (l : Log) : headOfNext (l.length + 1) = if l = [] then none else some l.length := by
  unfold headOfNext
  cases l <;> simp

section Serves
variable (hc : ∀ i, ConfOk (conf i) 16) (ho : ∀ l, (ord l).Perm l)

/-- Every open database holds what is said. -/
def HoldAll (conf : Nat → Conf) (hc : ∀ i, ConfOk (conf i) 16) (v5 : String → Uuid) (P : Proc) (S : Nat → Option Spec.Db) : Prop :=
  P.width = 16 ∧ ∀ i, match P.db i, S i with
    | none, none => True
    | some d, some s => (pageLawful (hc i) (tagHash_normalized v5 (.inl rfl))).RepD d s
    | _, _ => False

theorem HoldAll.put {P : Proc} {S : Nat → Option Spec.Db} (h : HoldAll conf hc v5 P S) {i : Nat} {d : PDb} {s : Spec.Db}
    (hd : (pageLawful (hc i) (tagHash_normalized v5 (.inl rfl))).RepD d s) :
    HoldAll conf hc v5 (P.put i d) (fun j => if j = i then some s else S j) := by
  refine ⟨h.1, fun j => ?_⟩
  unfold Proc.put
  dsimp only
  by_cases hj : j = i
  · subst hj
    rw [if_pos rfl, if_pos rfl]
    exact hd
  · rw [if_neg hj, if_neg hj]
    exact h.2 j

theorem HoldAll.same {P : Proc} {S : Nat → Option Spec.Db} (h : HoldAll conf hc v5 P S) {i : Nat} {s : Option Spec.Db} (hs : S i = s) :
    HoldAll conf hc v5 P (fun j => if j = i then s else S j) := by
  have : (fun j => if j = i then s else S j) = S := by
    funext j
    split
    · next hj => rw [hj, hs]
    · rfl
  rw [this]; exact h

open Classical in
include ho in
theorem HoldAll.call {P : Proc} {S : Nat → Option Spec.Db} (h : HoldAll conf hc v5 P S) (i : Nat) {x : ProcCall} (hx : Plain x) :
    ∃ s', Answered (Accepted (conf i).g.pageSize) (S i) x (P.call conf v5 ord i x).1 s' ∧
      HoldAll conf hc v5 (P.call conf v5 ord i x).2 (fun j => if j = i then s' else S j) := by
  have hw := h.1
  have hi := h.2 i
  have he : EnvOk (P.env v5 ord) := ⟨ho⟩
  have hH : P.env v5 ord = ⟨tagHash v5 16, ord⟩ := by unfold Proc.env; rw [hw]
  rw [hH] at he
  cases x with
  | openFile f => exact hx.elim
  | create =>
    obtain ⟨m, f, h1, h2⟩ := create_live (hc i) (tagHash v5 16)
    unfold Proc.call
    dsimp only
    rw [h1]
    refine ⟨_, ⟨rfl, rfl⟩, ?_⟩
    have := h.put hc (h2 none)
    exact ⟨rfl, this.2⟩
  | append req io =>
    unfold Proc.call
    dsimp only
    rw [hH]
    cases hP : P.db i with
    | none =>
      rw [hP] at hi
      cases hS : S i with
      | some s => rw [hS] at hi; exact hi.elim
      | none => exact ⟨none, ⟨rfl, rfl⟩, h.same hc hS⟩
    | some d =>
      rw [hP] at hi
      cases hS : S i with
      | none => rw [hS] at hi; exact hi.elim
      | some s =>
      rw [hS] at hi
      have hat := atWidth_live hi
      dsimp only
      rw [hw, hat]
      by_cases hne : req.events = []
      · rw [C02_empty_append _ _ _ hne]
        exact ⟨some s, .inl ⟨hne, rfl, rfl⟩, h.put hc hi⟩
      · rcases api_append_spec he (pageLawful (hc i) (tagHash_normalized v5 (.inl rfl))) hi hx hne io with ⟨k1, k2⟩ | ⟨e, k1, k2, k3 | k3⟩
        · exact ⟨_, .inr (.inl ⟨hne, _, rfl, k1, rfl⟩), h.put hc k2⟩
        · exact ⟨_, .inr (.inr ⟨hne, e, by rw [k1], k2, .inl rfl⟩), h.put hc k3⟩
        · exact ⟨_, .inr (.inr ⟨hne, e, by rw [k1], k2, .inr rfl⟩), h.put hc k3⟩
  | read query start backwards limit =>
    unfold Proc.call
    dsimp only
    rw [hH]
    cases hP : P.db i with
    | none =>
      rw [hP] at hi
      cases hS : S i with
      | some s => rw [hS] at hi; exact hi.elim
      | none => exact ⟨none, ⟨rfl, rfl⟩, h.same hc hS⟩
    | some d =>
      rw [hP] at hi
      cases hS : S i with
      | none => rw [hS] at hi; exact hi.elim
      | some s =>
      rw [hS] at hi
      have hat := atWidth_live hi
      dsimp only
      rw [hw, hat]
      refine ⟨some s, ⟨rfl, ?_⟩, h.same hc hS⟩
      have hhead : ∀ {b h' evs}, Db.read (pageBackend (conf i)) ⟨tagHash v5 16, ord⟩ d query start b limit = .ok (evs, h') → limit = none →
          h' = if s.log = [] then none else some s.log.length := by
        intro b h' evs hr hl
        subst hl
        unfold Db.read at hr
        split at hr
        · cases hr
        · cases hr
          rw [(pageLawful (hc i) (tagHash_normalized v5 (.inl rfl))).nextPosR hi]
          exact headOfNext_length _
      cases backwards with
      | false =>
        obtain ⟨h', hr⟩ := C07_forward_read he (pageLawful (hc i) (tagHash_normalized v5 (.inl rfl))) hi query start limit
        exact ⟨h', congrArg ProcReply.events hr, hhead hr⟩
      | true =>
        obtain ⟨h', hr⟩ := C08_backward_read he (pageLawful (hc i) (tagHash_normalized v5 (.inl rfl))) hi query start limit
        exact ⟨h', congrArg ProcReply.events hr, hhead hr⟩
  | track source =>
    unfold Proc.call
    dsimp only
    cases hP : P.db i with
    | none =>
      rw [hP] at hi
      cases hS : S i with
      | some s => rw [hS] at hi; exact hi.elim
      | none => exact ⟨none, ⟨rfl, rfl⟩, h.same hc hS⟩
    | some d =>
      rw [hP] at hi
      cases hS : S i with
      | none => rw [hS] at hi; exact hi.elim
      | some s =>
      rw [hS] at hi
      have hat := atWidth_live hi
      dsimp only
      rw [hw, hat]
      exact ⟨some s, ⟨rfl, congrArg ProcReply.tracked ((pageLawful (hc i) (tagHash_normalized v5 (.inl rfl))).trackR source hi)⟩, h.same hc hS⟩
  | head =>
    unfold Proc.call
    dsimp only
    cases hP : P.db i with
    | none =>
      rw [hP] at hi
      cases hS : S i with
      | some s => rw [hS] at hi; exact hi.elim
      | none => exact ⟨none, ⟨rfl, rfl⟩, h.same hc hS⟩
    | some d =>
      rw [hP] at hi
      cases hS : S i with
      | none => rw [hS] at hi; exact hi.elim
      | some s =>
      rw [hS] at hi
      have hat := atWidth_live hi
      dsimp only
      rw [hw, hat]
      refine ⟨some s, ⟨rfl, congrArg ProcReply.head ?_⟩, h.same hc hS⟩
      unfold Db.head
      rw [(pageLawful (hc i) (tagHash_normalized v5 (.inl rfl))).nextPosR hi]
      exact headOfNext_length _

include ho in
theorem calls_answered : ∀ {xs : List (Nat × ProcCall)} {P : Proc} {S : Nat → Option Spec.Db}, HoldAll conf hc v5 P S → (∀ x ∈ xs, Plain x.2) →
    ∃ S', AnsweredAll (fun i => Accepted (conf i).g.pageSize) S xs (P.calls conf v5 ord xs).1 S' ∧
      HoldAll conf hc v5 (P.calls conf v5 ord xs).2 S'
  | [], _, S, h, _ => ⟨S, .nil S, h⟩
  | (i, x) :: xs, P, S, h, hx => by
    obtain ⟨s', h1, h2⟩ := h.call hc ho i (hx _ (.head _))
    obtain ⟨S', h3, h4⟩ := calls_answered h2 (fun y hy => hx y (.tail _ hy))
    exact ⟨S', .cons h1 h3, h4⟩

end Serves

/-- Any number of databases created in one process, any calls: each call is answered as its own database's content says, and changes
nothing else. -/
theorem C70_serves_partial (hc : ∀ i, ConfOk (conf i) 16) (ho : ∀ l, (ord l).Perm l) {xs : List (Nat × ProcCall)} (hx : ∀ x ∈ xs, Plain x.2) :
    ∃ S', AnsweredAll (fun i => Accepted (conf i).g.pageSize) (fun _ => none) xs (Proc.start.calls conf v5 ord xs).1 S' := by
  obtain ⟨S', h, -⟩ := calls_answered (v5 := v5) (ord := ord) hc ho (P := Proc.start) (S := fun _ => none) ⟨rfl, fun _ => trivial⟩ hx
  exact ⟨S', h⟩

/-- A file with a version that is not known leaves the width as it is, and is not opened. -/
theorem C70_refused {P : Proc} {i : Nat} {f : File} {h0 h1 p : HPage} {h : Header} {f1 : File}
    (hh : openHeaders (conf i).g P.width (conf i).zeroFill f = (.ok (h0, h1), f1)) (hl : latestPage h0 h1 = .ok p) (hn : p.node = .header h)
    (hs : 1 < h.schema) :
    (P.call conf v5 ord i (.openFile f)).2 = P ∧ ∃ e, (P.call conf v5 ord i (.openFile f)).1 = .opened (.error e) := by
  have hw : widthLeft (conf i).g P.width (conf i).zeroFill f = P.width := by
    unfold widthLeft
    rw [hh]
    simp only [hl, bind, Except.bind, hn, asHeader]
    exact if_pos hs
  have ho : ∃ e f', openExisting (conf i).g P.width (conf i).zeroFill f = (.error e, f') := by
    unfold openExisting
    rw [hh]
    simp only [hl, bind, Except.bind, hn, asHeader]
    unfold checkDatabase
    rw [if_pos (show h.schema > dbSchemaVersion from hs)]
    exact ⟨_, _, rfl⟩
  obtain ⟨e, f', ho⟩ := ho
  unfold Proc.call
  dsimp only
  rw [ho, hw]
  exact ⟨rfl, e, rfl⟩

/-- A file without a readable header is not opened, and leaves the process as it is. -/
theorem C70_unreadable {P : Proc} {i : Nat} {f : File} (hf : ∀ k, k = 0 ∨ k = 1 → ∀ h, readPage (conf i).g P.width k f ≠ .ok (.header h)) :
    (P.call conf v5 ord i (.openFile f)).2 = P ∧ ∃ e, (P.call conf v5 ord i (.openFile f)).1 = .opened (.error e) := by
  have key : (∃ e f1, openHeaders (conf i).g P.width (conf i).zeroFill f = (.error e, f1)) ∨
      ∃ h0 h1 f1 e, openHeaders (conf i).g P.width (conf i).zeroFill f = (.ok (h0, h1), f1) ∧ latestPage h0 h1 = .error e := by
    have hno : ∀ {n : Node}, (∀ h, n ≠ .header h) → ∃ e, asHeader n = .error e := by
      intro n hn
      cases n with
      | header h => exact absurd rfl (hn h)
      | _ => exact ⟨_, rfl⟩
    have hlate : ∀ {a b : Nat} {n m : Node}, (∀ h, n ≠ .header h) → ∃ e, latestPage ⟨a, n⟩ ⟨b, m⟩ = .error e := by
      intro a b n m hn
      obtain ⟨e, he⟩ := hno hn
      unfold latestPage
      rw [show asHeader (HPage.mk a n).node = .error e from he]
      exact ⟨e, rfl⟩
    unfold openHeaders
    cases h0 : readPage (conf i).g P.width 0 f with
    | ok n0 =>
      have hn0 : ∀ h, n0 ≠ .header h := fun h e => hf 0 (.inl rfl) h (by rw [h0, e])
      cases h1 : readPage (conf i).g P.width 1 f with
      | ok n1 =>
        obtain ⟨e, he⟩ := hlate (a := 0) (b := 1) (m := n1) hn0
        exact .inr ⟨_, _, _, e, rfl, he⟩
      | error e1 =>
        dsimp only
        split
        · exact .inl ⟨_, _, rfl⟩
        · obtain ⟨e, he⟩ := hlate (a := 0) (b := 0) (m := n0) hn0
          exact .inr ⟨_, _, _, e, rfl, he⟩
    | error e0 =>
      cases h1 : readPage (conf i).g P.width 1 f with
      | ok n1 =>
        have hn1 : ∀ h, n1 ≠ .header h := fun h e => hf 1 (.inr rfl) h (by rw [h1, e])
        dsimp only
        split
        · exact .inl ⟨_, _, rfl⟩
        · split
          · exact .inl ⟨_, _, rfl⟩
          · obtain ⟨e, he⟩ := hlate (a := 1) (b := 1) (m := n1) hn1
            exact .inr ⟨_, _, _, e, rfl, he⟩
      | error e1 => exact .inl ⟨_, _, rfl⟩
  have hw : widthLeft (conf i).g P.width (conf i).zeroFill f = P.width := by
    unfold widthLeft
    rcases key with ⟨e, f1, hh⟩ | ⟨h0, h1, f1, e, hh, hl⟩
    · rw [hh]
    · rw [hh]
      simp only [hl, bind, Except.bind]
  have ho : ∃ e f', openExisting (conf i).g P.width (conf i).zeroFill f = (.error e, f') := by
    unfold openExisting
    rcases key with ⟨e, f1, hh⟩ | ⟨h0, h1, f1, e, hh, hl⟩
    · rw [hh]; exact ⟨_, _, rfl⟩
    · rw [hh]
      simp only [hl, bind, Except.bind]
      exact ⟨_, _, rfl⟩
  obtain ⟨e, f', ho⟩ := ho
  unfold Proc.call
  dsimp only
  rw [ho, hw]
  exact ⟨rfl, e, rfl⟩

/-! ## A database of the old format opened later -/

def exV5 : String → Uuid := fun _ => #v[0, 0, 0, 0, 0, 0, 0, 0, 0, 0, 0, 0, 0, 0, 0, 7]

/-- An empty database of the old format, with small pages. -/
def exOld : File :=
  (writePages ⟨128, 8⟩ 8 true ((0, .header { initialHeader with schema := 0 }) :: (1, .header { initialHeader with schema := 0 })
    :: initialPages) emptyFile).2

def exConfs : Nat → Conf
  | 0 => exConf
  | _ => ⟨⟨128, 8⟩, true, exConf.bs⟩

/-- The events with tag "t". -/
def exAsk : Option Query := some ⟨[⟨[], ["t"]⟩]⟩

/-- One more event, unless there is one with type "T" and tag "t". -/
def exGuarded : Request := ⟨[exEv 3], some ⟨⟨[⟨["T"], ["t"]⟩]⟩, none⟩, none⟩

/-- Positions read with the query `exAsk` in the state that `w` leaves, over any other pages. -/
def exAsked (H : String → TagHash) (w : Writer) (v : Nat → Option Node) : Option (List Nat) :=
  match readConditional H id (snapOf exConf (over w.dirty v) (turns exConf w.nextPos w.nextPage) w.eventsRoot w.tagsRoot)
    (exAsk.getD ⟨[]⟩) none false none false Cancel.never with
  | .ok l => some (l.map (·.position))
  | .error _ => none

/-- What becomes of `exGuarded` in a transaction that follows `w` when the width is `kw`. -/
noncomputable def exTried (kw : Nat) (d : PDb) (hp : HPage) (w : Writer) (v : Nat → Option Node) : Option (Except Err Nat) :=
  match findReusable none { exNext w v with kw := kw } with
  | (.ok (), wr) => some (processAppend (pageBackend exConf) ⟨tagHash exV5 kw, id⟩ exGuarded (fun _ => Cancel.never) ⟨d, hp, wr⟩).1
  | _ => none

def isOk3 : Option (Except Err Nat) → Bool
  | some (.ok p) => p == 3
  | _ => false

def isRefused : Option (Except Err Nat) → Bool
  | some (.error e) => isIntegrityError e
  | _ => false

theorem isOk3_spec {r : Option (Except Err Nat)} (h : isOk3 r = true) : r = some (.ok 3) := by
  unfold isOk3 at h
  split at h
  · rw [eq_of_beq h]
  · cases h

theorem isRefused_spec {r : Option (Except Err Nat)} (h : isRefused r = true) : ∃ e, r = some (.error e) ∧ isIntegrityError e = true := by
  unfold isRefused at h
  split at h
  · exact ⟨_, rfl, h⟩
  · cases h

noncomputable def exWidths (d1 d2 : PDb) (hp1 hp2 : HPage) (b v : Nat → Option Node) : Bool :=
  match exStep (exW b) d1 hp1 ⟨1, exReq, noCancel⟩ with
  | none => false
  | some w => exFits w && w.dirty.all (fun x => decide (2 ≤ x.1)) && decide (exAsked (tagHash exV5 16) w v = some [1, 2]) &&
      decide (exAsked (tagHash exV5 8) w v = some []) && isOk3 (exTried 8 d2 hp2 w v) && isRefused (exTried 16 d2 hp2 w v)
      && decide (w.nextPos = 3)

theorem exWidths_true (d1 d2 : PDb) (hp1 hp2 : HPage) (b v : Nat → Option Node) : exWidths d1 d2 hp1 hp2 b v = true := by
  run_tac do
    let g ← Lean.Elab.Tactic.getMainGoal
    let some (_, l, _) := (← g.getType).eq? | failure
    g.assign (← Lean.Meta.mkEqRefl l)

theorem exWidths_steps (d1 : PDb) (hp1 : HPage) (b : Nat → Option Node) : ∃ w, exStep (exW b) d1 hp1 ⟨1, exReq, noCancel⟩ = some w ∧
    exFits w = true ∧ (∀ x ∈ w.dirty, 2 ≤ x.1) ∧ w.nextPos = 3 ∧ ∀ d2 hp2 v, exAsked (tagHash exV5 16) w v = some [1, 2] ∧
      exAsked (tagHash exV5 8) w v = some [] ∧ exTried 8 d2 hp2 w v = some (.ok 3) ∧
      ∃ e, exTried 16 d2 hp2 w v = some (.error e) ∧ isIntegrityError e = true := by
  have key := fun d2 hp2 v => exWidths_true d1 d2 hp1 hp2 b v
  unfold exWidths at key
  cases h1 : exStep (exW b) d1 hp1 ⟨1, exReq, noCancel⟩ with
  | none =>
    have := key d1 hp1 b
    rw [h1] at this; cases this
  | some w =>
    simp only [h1, Bool.and_eq_true, decide_eq_true_eq, List.all_eq_true] at key
    have k0 := key d1 hp1 b
    exact ⟨w, rfl, k0.1.1.1.1.1.1, k0.1.1.1.1.1.2, k0.2, fun d2 hp2 v => by
      obtain ⟨⟨⟨⟨⟨⟨-, -⟩, a⟩, b⟩, c⟩, e⟩, -⟩ := key d2 hp2 v
      exact ⟨a, b, isOk3_spec c, isRefused_spec e⟩⟩

theorem exV5_hash : tagHash exV5 16 = exConstEnv.H := by
  funext t
  show unbe (exV5 t).toArray.toList = 7
  unfold exV5
  decide +kernel

theorem exOld_opens : ∃ m f, openExisting ⟨128, 8⟩ 16 true exOld = (.ok m, f) ∧ m.kw = 8 := by
  have h : stateOf (openExisting ⟨128, 8⟩ 16 true exOld).1 = some (0, 0, 8) := by decide +kernel
  cases e : openExisting ⟨128, 8⟩ 16 true exOld with
  | mk r f =>
    rw [e] at h
    cases r with
    | error e => cases h
    | ok m =>
      refine ⟨m, f, rfl, ?_⟩
      simp only [stateOf] at h
      split at h
      · simp only [Option.some.injEq, Prod.mk.injEq] at h; exact h.2.2
      · cases h

theorem stepJob_result {δ σ υ ι : Type} {B : Backend δ σ υ ι} {env : Env} {w : σ} {j : Job} {x : Batch σ} {p : Nat}
    (h : stepJob B env (Batch.new w) j = .ok x) (hp : x.results = [.ok p]) : processAppend B env j.req j.cancel w = (.ok p, x.w) := by
  unfold stepJob at h
  have hw : (Batch.new w).w = w := rfl
  have hr : (Batch.new w).results = [] := rfl
  dsimp only at h
  rw [hw, hr] at h
  split at h
  · cases h
  · next p' w' e =>
    cases h
    simp only [List.nil_append, List.cons.injEq, Except.ok.injEq, and_true] at hp
    rw [e, hp]
  · cases h
    simp at hp

/-- The database number 0 after the first two calls. -/
theorem exCreated : ∃ (d dA : PDb) (w : Writer), Proc.start.call exConfs exV5 id 0 .create = (.opened (.ok ()), ⟨16, fun j => if j = 0 then some d else none⟩) ∧
    Proc.call exConfs exV5 id ⟨16, fun j => if j = 0 then some d else none⟩ 0 (.append exReq exIO) =
      (.appended (.ok 2), ⟨16, fun j => if j = 0 then some dA else none⟩) ∧
    dA.m.kw = 16 ∧ latestPage dA.m.h0 dA.m.h1 = .ok ⟨1, .header (newHeader w 1)⟩ ∧ dA.oldest = none ∧ w.nextPos = 3 ∧
    (∀ x ∈ w.dirty, 2 ≤ x.1) ∧ (∀ p n, w.dirty.get p = some n → dA.cache p = some n) ∧
    ∀ d2 hp2 v, exAsked (tagHash exV5 16) w v = some [1, 2] ∧ exAsked (tagHash exV5 8) w v = some [] ∧
      exTried 8 d2 hp2 w v = some (.ok 3) ∧ ∃ e, exTried 16 d2 hp2 w v = some (.error e) ∧ isIntegrityError e = true := by
  obtain ⟨m, f, hcr, h2, -, -, h5⟩ := Props.C47_create (g := exConf.g) ⟨by decide, by decide⟩ false
  have hd0 : (pageLawful exConf_ok exConstEnv_width).RepD (.fresh f m f [] none) Spec.Db.empty := by
    obtain ⟨m', f', hcr', hl⟩ := create_live exConf_ok exConstEnv.H
    rw [show create exConf.g exConf.zeroFill emptyFile = (.ok m, f) from hcr] at hcr'
    cases hcr'
    exact hl none
  have hL := live_initial exConf_ok exConstEnv.H h2 h5 f [] none
  have hcall : Proc.start.call exConfs exV5 id 0 .create =
      (.opened (.ok ()), ⟨16, fun j => if j = 0 then some (PDb.fresh f m f [] none) else none⟩) := by
    unfold Proc.call
    dsimp only
    rw [show create (exConfs 0).g (exConfs 0).zeroFill emptyFile = (.ok m, f) from hcr]
    rfl
  obtain ⟨d, hd⟩ : ∃ d, d = PDb.fresh f m f [] none := ⟨_, rfl⟩
  rw [← hd] at hd0 hL hcall
  have hold : d.oldest = none := by rw [hd]; rfl
  have hbase : d.base exConf = exBase (d.base exConf) := by
    funext p
    have hs := hL.sees
    unfold exBase
    split
    · exact hs 2 _ (by simp)
    · exact hs 3 _ (by simp)
    · exact hs 4 _ (by simp)
    · rfl
  have hnew : newWriter exConf d initialHeader = exW (d.base exConf) := by
    unfold newWriter exW
    rw [hL.width, ← hbase]
    rfl
  obtain ⟨w1, e1, fit1, two1, pos1, rest⟩ := exWidths_steps d ⟨0, .header initialHeader⟩ (d.base exConf)
  rw [← hnew] at e1
  obtain ⟨b1, dA, hB1, hdb1, hhp1, hrun1, hab1, hsays1, hcom1, hA, hAd, hT1⟩ := exStep_commits hd0
    ⟨fun r hr => (by cases hr), fun s p hp => (by cases hp)⟩ hL.latest rfl hold e1 fit1 exReq_after exReq_machine (fun _ _ => rfl)
  rw [exAppended] at hsays1
  have hsays1 : SaysAll b1.results [.ok 2] := hsays1
  obtain ⟨g1, -, hg1, -, -, -, -, hlA, hkwA, hcacheA, holdA, -, -⟩ := exCommit_shape hT1 hdb1 hhp1 hL.latest rfl rfl hrun1 hcom1
  have hcache1 : ∀ p n, w1.dirty.get p = some n → dA.cache p = some n := by
    intro p n hp
    rw [hcacheA, cacheAfter, if_pos (show exIO.keep p = true from rfl), hp]
  refine ⟨d, dA, w1, hcall, ?_, hkwA, hlA, holdA, pos1, two1, hcache1, rest⟩
  obtain ⟨w, b, hb1, hb2, hb3⟩ := hB1
  have : b = b1 := by unfold Db.drain at hb3; cases hb3; rfl
  subst this
  have hres : b.results = [.ok 2] := by
    match b.results, hsays1 with
    | [.ok p], j4 => have hp : p = 2 := j4.1; rw [hp]
    | [.error e], j4 => exact absurd (show Says (.error e) (.ok 2) from j4.1) (by cases e <;> simp [Says])
    | _ :: _ :: _, j4 => exact j4.2.elim
  have hproc := stepJob_result hb2 hres
  have hat : atWidth 16 d = d := by
    unfold atWidth
    rw [← hL.width]
  have henv : Proc.env ⟨16, fun j => if j = 0 then some d else none⟩ exV5 id = exConstEnv := by
    unfold Proc.env
    show (⟨tagHash exV5 16, id⟩ : Env) = _
    rw [exV5_hash]; rfl
  unfold Proc.call
  dsimp only
  rw [if_pos rfl]
  dsimp only
  rw [hat, henv]
  have happ : Db.append (pageBackend exConf) exConstEnv exReq exIO d = (.ok 2, dA) := by
    unfold Db.append
    rw [if_neg (by decide), hb1]
    dsimp only
    rw [show (fun _ => Cancel.never) = noCancel from rfl, hproc]
    dsimp only
    rw [show (pageBackend exConf).commit exIO b.w = (.ok (), dA) from hcom1]
  rw [show exConfs 0 = exConf from rfl, happ]
  have hf : (fun j => if j = 0 then some dA else if j = 0 then some d else none) = fun j => if j = 0 then some dA else none := by
    funext j
    by_cases hj : j = 0 <;> simp [hj]
  show (ProcReply.appended (.ok 2), Proc.mk 16 (fun j => if j = 0 then some dA else if j = 0 then some d else none)) = _
  rw [hf]

/-- The database as it is at another width. -/
theorem exA_width {dA : PDb} {w : Writer} (hl : latestPage dA.m.h0 dA.m.h1 = .ok ⟨1, .header (newHeader w 1)⟩)
    (two : ∀ x ∈ w.dirty, 2 ≤ x.1) (hc : ∀ p n, w.dirty.get p = some n → dA.cache p = some n) (kw : Nat) :
    (atWidth kw dA).header = .ok (newHeader w 1) ∧
    (atWidth kw dA).base exConf = over w.dirty ((atWidth kw dA).base exConf) ∧
    newWriter exConf (atWidth kw dA) (newHeader w 1) = { exNext w ((atWidth kw dA).base exConf) with kw := kw } := by
  have hb : (atWidth kw dA).base exConf = over w.dirty ((atWidth kw dA).base exConf) := base_over two hc
  refine ⟨?_, hb, ?_⟩
  · unfold PDb.header
    rw [show latestPage (atWidth kw dA).m.h0 (atWidth kw dA).m.h1 = _ from hl]
    rfl
  · unfold newWriter exNext
    rw [← hb]
    rfl

/-- Reading at a width. -/
theorem exA_read {dA : PDb} {w : Writer} (hl : latestPage dA.m.h0 dA.m.h1 = .ok ⟨1, .header (newHeader w 1)⟩)
    (two : ∀ x ∈ w.dirty, 2 ≤ x.1) (hc : ∀ p n, w.dirty.get p = some n → dA.cache p = some n) (pos : w.nextPos = 3) {kw : Nat} {l : List Nat}
    (ha : ∀ v, exAsked (tagHash exV5 kw) w v = some l) :
    ∃ evs, Db.read (pageBackend exConf) ⟨tagHash exV5 kw, id⟩ (atWidth kw dA) exAsk none false none = .ok (evs, some 2) ∧
      evs.map (·.position) = l := by
  obtain ⟨h1, h2, -⟩ := exA_width hl two hc kw
  have hsnap : (pageBackend exConf).snapR (atWidth kw dA) =
      snapOf exConf (over w.dirty ((atWidth kw dA).base exConf)) (turns exConf w.nextPos w.nextPage) w.eventsRoot w.tagsRoot := by
    show PDb.snap exConf (atWidth kw dA) = _
    unfold PDb.snap
    rw [h1, ← h2]
    rfl
  have hpos : (pageBackend exConf).nextPosR (atWidth kw dA) = 3 := by
    show PDb.nextPos (atWidth kw dA) = _
    unfold PDb.nextPos
    rw [h1]; exact pos
  have := ha ((atWidth kw dA).base exConf)
  unfold exAsked at this
  unfold Db.read
  rw [hsnap, hpos]
  dsimp only
  split at this
  · next evs e =>
    rw [e]
    exact ⟨evs, rfl, Option.some.inj this⟩
  · cases this

/-- Appending at a width: what the check of the condition and the updates give. -/
theorem exA_append {dA : PDb} {w : Writer} (hl : latestPage dA.m.h0 dA.m.h1 = .ok ⟨1, .header (newHeader w 1)⟩) (ho : dA.oldest = none)
    (two : ∀ x ∈ w.dirty, 2 ≤ x.1) (hc : ∀ p n, w.dirty.get p = some n → dA.cache p = some n) {kw : Nat} {r : Except Err Nat}
    (ht : exTried kw (atWidth kw dA) ⟨1, .header (newHeader w 1)⟩ w ((atWidth kw dA).base exConf) = some r) :
    ∃ x x', (pageBackend exConf).begin (atWidth kw dA) = .ok x ∧
      processAppend (pageBackend exConf) ⟨tagHash exV5 kw, id⟩ exGuarded (fun _ => Cancel.never) x = (r, x') := by
  obtain ⟨-, -, h3⟩ := exA_width hl two hc kw
  have := ht
  unfold exTried at this
  split at this
  · next wr e =>
    refine ⟨⟨atWidth kw dA, ⟨1, .header (newHeader w 1)⟩, wr⟩, (processAppend (pageBackend exConf) ⟨tagHash exV5 kw, id⟩ exGuarded
      (fun _ => Cancel.never) ⟨atWidth kw dA, ⟨1, .header (newHeader w 1)⟩, wr⟩).2, ?_, ?_⟩
    · show PDb.writer exConf (atWidth kw dA) = _
      unfold PDb.writer
      rw [show latestPage (atWidth kw dA).m.h0 (atWidth kw dA).m.h1 = _ from hl]
      simp only [bind, Except.bind, asHeader]
      rw [h3, show (atWidth kw dA).oldest = none from ho, e]
    · rw [← Option.some.inj this]
  · cases this

/-- What the two processes of the example do: database 0 is created and two events are appended; in the first process database 1, a file
of the old format, is then opened. -/
def exShared : List (Nat × ProcCall) := [(0, .create), (0, .append exReq exIO), (1, .openFile exOld)]

def exAlone : List (Nat × ProcCall) := [(0, .create), (0, .append exReq exIO)]

theorem exAlone_eq : exAlone = exShared.filter fun x => x.1 = 0 := rfl

theorem exProcs : ∃ (dA d1 : PDb) (w : Writer),
    Proc.start.calls exConfs exV5 id exAlone = ([(0, .opened (.ok ())), (0, .appended (.ok 2))], ⟨16, fun j => if j = 0 then some dA else none⟩) ∧
    Proc.start.calls exConfs exV5 id exShared = ([(0, .opened (.ok ())), (0, .appended (.ok 2)), (1, .opened (.ok ()))],
      ⟨8, fun j => if j = 1 then some d1 else if j = 0 then some dA else none⟩) ∧
    latestPage dA.m.h0 dA.m.h1 = .ok ⟨1, .header (newHeader w 1)⟩ ∧ dA.oldest = none ∧ w.nextPos = 3 ∧
    (∀ x ∈ w.dirty, 2 ≤ x.1) ∧ (∀ p n, w.dirty.get p = some n → dA.cache p = some n) ∧
    ∀ d2 hp2 v, exAsked (tagHash exV5 16) w v = some [1, 2] ∧ exAsked (tagHash exV5 8) w v = some [] ∧
      exTried 8 d2 hp2 w v = some (.ok 3) ∧ ∃ e, exTried 16 d2 hp2 w v = some (.error e) ∧ isIntegrityError e = true := by
  obtain ⟨d, dA, w, c1, c2, -, h1, h2, h3, h4, h5, h6⟩ := exCreated
  obtain ⟨m, f, ho, hm⟩ := exOld_opens
  have hkw : widthLeft ⟨128, 8⟩ 16 true exOld = 8 := by decide +kernel
  refine ⟨dA, .fresh f m f [] none, w, ?_, ?_, h1, h2, h3, h4, h5, h6⟩
  · simp only [exAlone, Proc.calls, c1, c2]
  · have c3 : Proc.call exConfs exV5 id ⟨16, fun j => if j = 0 then some dA else none⟩ 1 (.openFile exOld) =
        (.opened (.ok ()), ⟨8, fun j => if j = 1 then some (.fresh f m f [] none) else if j = 0 then some dA else none⟩) := by
      unfold Proc.call
      dsimp only
      rw [show openExisting (exConfs 1).g 16 (exConfs 1).zeroFill exOld = (.ok m, f) from ho,
        show widthLeft (exConfs 1).g 16 (exConfs 1).zeroFill exOld = 8 from hkw]
      rfl
    simp only [exShared, Proc.calls, c1, c2, c3]

theorem exEnv_at (db : Nat → Option PDb) (kw : Nat) : Proc.env ⟨kw, db⟩ exV5 id = ⟨tagHash exV5 kw, id⟩ := rfl

/-- The claim fails when a file of the old format is opened: events with a tag that were there are no longer found by that tag in the
other database, which nobody has touched. -/
theorem C70_false : ∃ evs : List SeqEvent, evs.map (·.position) = [1, 2] ∧
    (Proc.start.calls exConfs exV5 id (exAlone ++ [(0, .read exAsk none false none)])).1.getLast? = some (0, .events (.ok (evs, some 2))) ∧
    (Proc.start.calls exConfs exV5 id (exShared ++ [(0, .read exAsk none false none)])).1.getLast? = some (0, .events (.ok ([], some 2))) := by
  obtain ⟨dA, d1, w, c1, c2, h1, h2, h3, h4, h5, h6⟩ := exProcs
  obtain ⟨e16, r16, p16⟩ := exA_read h1 h4 h5 h3 (kw := 16) (fun v => (h6 dA ⟨0, .header initialHeader⟩ v).1)
  obtain ⟨e8, r8, p8⟩ := exA_read h1 h4 h5 h3 (kw := 8) (fun v => (h6 dA ⟨0, .header initialHeader⟩ v).2.1)
  have h8 : e8 = [] := List.map_eq_nil_iff.mp p8
  subst h8
  refine ⟨e16, p16, ?_, ?_⟩
  · rw [calls_append, c1]
    simp only [Proc.calls, Proc.call, if_true, exEnv_at]
    rw [show exConfs 0 = exConf from rfl, r16]; rfl
  · rw [calls_append, c2]
    simp only [Proc.calls, Proc.call, if_true, if_neg (show ¬ 0 = 1 by decide), exEnv_at]
    rw [show exConfs 0 = exConf from rfl, r8]; rfl

/-- And a condition on that tag is no longer enforced: what is refused in a process of its own passes here. -/
theorem C70_condition_false : (∃ e, isIntegrityError e = true ∧ (Proc.start.calls exConfs exV5 id (exAlone ++ [(0, .append exGuarded exIO)])).1.getLast? =
      some (0, .appended (.error e))) ∧
    ∃ d x x', (Proc.start.calls exConfs exV5 id exShared).2.db 0 = some d ∧ (Proc.start.calls exConfs exV5 id exShared).2.width = 8 ∧
      (pageBackend exConf).begin (atWidth 8 d) = .ok x ∧
      processAppend (pageBackend exConf) ((Proc.start.calls exConfs exV5 id exShared).2.env exV5 id) exGuarded (fun _ => Cancel.never) x = (.ok 3, x') := by
  obtain ⟨dA, d1, w, c1, c2, h1, h2, h3, h4, h5, h6⟩ := exProcs
  obtain ⟨x8, x8', b8, p8⟩ := exA_append h1 h2 h4 h5 (kw := 8) (h6 _ _ _).2.2.1
  constructor
  · obtain ⟨e, he, hi⟩ : ∃ e, (∃ x x', (pageBackend exConf).begin (atWidth 16 dA) = .ok x ∧
        processAppend (pageBackend exConf) ⟨tagHash exV5 16, id⟩ exGuarded (fun _ => Cancel.never) x = (.error e, x')) ∧
        isIntegrityError e = true := by
      obtain ⟨e, he, hi⟩ := (h6 (atWidth 16 dA) ⟨1, .header (newHeader w 1)⟩ ((atWidth 16 dA).base exConf)).2.2.2
      exact ⟨e, exA_append h1 h2 h4 h5 he, hi⟩
    obtain ⟨x, x', hb, hp⟩ := he
    refine ⟨e, hi, ?_⟩
    have happ : Db.append (pageBackend exConf) ⟨tagHash exV5 16, id⟩ exGuarded exIO (atWidth 16 dA) = (.error e, atWidth 16 dA) := by
      unfold Db.append
      rw [if_neg (by decide), hb]
      dsimp only
      rw [hp]
    rw [calls_append, c1]
    simp only [Proc.calls, Proc.call, if_true, exEnv_at]
    rw [show exConfs 0 = exConf from rfl, happ]; rfl
  · rw [c2]
    refine ⟨dA, x8, x8', by simp, rfl, b8, ?_⟩
    rw [exEnv_at]
    exact p8

/-! ### Examples -/

/-- Two databases of the current format, interleaved. -/
def exTwoDbs : List (Nat × ProcCall) :=
  [(0, .create), (1, .openFile exampleFile), (0, .append exReq exIO), (1, .read none none false none), (0, .read exAsk none false none)]

theorem exTwoDbs_keeps : ∀ x ∈ exTwoDbs, KeepsWidth exConfs 16 x := by
  intro x hx
  simp only [exTwoDbs, List.mem_cons, List.not_mem_nil, or_false] at hx
  rcases hx with rfl | rfl | rfl | rfl | rfl
  · exact rfl
  · show widthLeft ⟨128, 8⟩ 16 true exampleFile = 16
    decide +kernel
  all_goals trivial

example : (Proc.start.calls exConfs exV5 id exTwoDbs).1.filter (fun r => r.1 = 0) =
    (Proc.start.calls exConfs exV5 id (exAlone ++ [(0, .read exAsk none false none)])).1 :=
  (C70_alone_partial (v5 := exV5) (ord := id) exTwoDbs_keeps 0).1

/-- In a process that has opened the old file first, a second old file changes nothing. -/
example : KeepsWidth exConfs 8 (1, .openFile exOld) := by
  show widthLeft ⟨128, 8⟩ 8 true exOld = 8
  decide +kernel

example : widthLeft ⟨128, 8⟩ 16 true exOld = 8 ∧ widthLeft ⟨128, 8⟩ 8 true exampleFile = 16 ∧ widthLeft ⟨128, 8⟩ 8 true emptyFile = 8 := by
  decide +kernel

/-- A file from a later version. -/
def exNewer : File :=
  (writePages ⟨128, 8⟩ 16 true ((0, .header { initialHeader with schema := 2 }) :: (1, .header { initialHeader with schema := 2 })
    :: initialPages) emptyFile).2

example : widthLeft ⟨128, 8⟩ 8 true exNewer = 8 ∧ (openExisting ⟨128, 8⟩ 8 true exNewer).1.toOption.isNone = true := by decide +kernel

/-- An old file without its trees: it is refused but the width is changed. -/
def exBare : File := (writePages ⟨128, 8⟩ 8 true [(0, .header { initialHeader with schema := 0 }), (1, .header { initialHeader with schema := 0 })] emptyFile).2

example : widthLeft ⟨128, 8⟩ 16 true exBare = 8 ∧ (openExisting ⟨128, 8⟩ 16 true exBare).1.toOption.isNone = true := by decide +kernel

/-- Files without a header: an empty one, and one with another page in the place of the first header. -/
example : widthLeft ⟨128, 8⟩ 16 true emptyFile = 16 ∧
    widthLeft ⟨128, 8⟩ 16 true (writePages ⟨128, 8⟩ 16 true [(0, .eventLeaf [] []), (1, .eventLeaf [] [])] emptyFile).2 = 16 := by decide +kernel

example : ∃ S', AnsweredAll (fun _ => Accepted exConf.g.pageSize) (fun _ => none)
    [(5, .create), (6, .head), (5, .append exReq exIO), (6, .create), (5, .track "up"), (6, .head)]
    (Proc.start.calls (fun _ => exConf) exV5 id
      [(5, .create), (6, .head), (5, .append exReq exIO), (6, .create), (5, .track "up"), (6, .head)]).1 S' :=
  C70_serves_partial (fun _ => exConf_ok) (fun l => List.Perm.refl l) (by
    intro x hx
    simp only [List.mem_cons, List.not_mem_nil, or_false] at hx
    rcases hx with rfl | rfl | rfl | rfl | rfl | rfl
    any_goals trivial
    show AfterOk exReq
    exact exReq_after ⟨1, exReq, noCancel⟩ (by simp [appendJobs]))

end Uma.Props
