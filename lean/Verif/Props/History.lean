import Verif.Page.History
import Verif.Props.Recency

/-!
# Histories of calls are linearizable, also across crashes: C58
-/

namespace Uma.Props
open Uma.Spec Uma.Db Uma.Page Uma.Mvcc

variable {c : Conf} {kw : Nat}

/-! ## States at times -/

section Times
variable {valid : Record → Prop} [DecidablePred valid] {s : Spec.Db} {A B : List Done} {t : Nat}

theorem stateAt_all (h : ∀ x ∈ A, x.time ≤ t) : stateAt valid s A t = (appendAll valid s (A.map (·.req))).2 := by
  unfold stateAt
  rw [List.filter_eq_self.mpr fun x hx => by simpa using h x hx]

theorem stateAt_old (h : ∀ x ∈ B, t < x.time) : stateAt valid s (A ++ B) t = stateAt valid s A t := by
  unfold stateAt
  have hB : B.filter (fun x => decide (x.time ≤ t)) = [] := List.filter_eq_nil_iff.mpr fun x hx => by have := h x hx; simpa using this
  rw [List.filter_append, hB, List.append_nil]

end Times

/-! ## Steps of the system -/

section Steps
variable {hc : ConfOk c kw} {H : String → TagHash} {G G' : Spec.Db → Spec.Db → Prop} {s : Spec.Db} {σ σ' : Sys}

theorem SysOfG.quiet (hI : SysOfG G c hc H σ s) (hq : Quiet c σ σ') : SysOfG G c hc H σ' s := by
  cases hq with
  | reader hr =>
    obtain ⟨hp, h, PE, PT, PK, PF, ix, F, I⟩ := hI
    exact ⟨hp, h, PE, PT, PK, PF, ix, F, I.reader hr⟩
  | evict p =>
    obtain ⟨hp, h, PE, PT, PK, PF, ix, F, I⟩ := hI
    refine ⟨hp, h, PE, PT, PK, PF, ix, F, I.recache fun q m hm => ?_⟩
    split at hm
    · cases hm
    · exact .inl hm
  | load hh hu hr =>
    obtain ⟨hp, h, PE, PT, PK, PF, ix, F, I⟩ := hI
    refine ⟨hp, h, PE, PT, PK, PF, ix, F, I.recache fun q m hm => ?_⟩
    split at hm
    · next e => cases hm; subst e; rw [I.live.width] at hr; exact .inr hr
    · exact .inl hm
  | @settle d r rd w io wr hw =>
    obtain ⟨hp, h, PE, PT, PK, PF, ix, F, I⟩ := hI
    refine ⟨hp, h, PE, PT, PK, PF, ix, F, I.live, I.safe, I.slots, fun b hb => ?_, I.wf, I.count, I.rd⟩
    cases hb
    obtain ⟨h1, h2, -⟩ := I.tx _ rfl
    refine ⟨h1, h2, fun w' io' wr' hb => ?_⟩
    cases hb; exact hw
  | scribble ht hcache => exact hI.scribble ht hcache

theorem SysOfG.arrive (hI : SysOfG G c hc H σ s) : SysOfG G c hc H { σ with rd := σ.rd ++ [.start] } s := by
  obtain ⟨hp, h, PE, PT, PK, PF, ix, F, I⟩ := hI
  refine ⟨hp, h, PE, PT, PK, PF, ix, F, I.live, I.safe, I.slots, I.tx, I.wf, fun t => ?_, fun ph hph => ?_⟩
  · rw [List.countP_append, ← I.count t]; simp [Phase.holds]
  · rcases List.mem_append.mp hph with hph | hph
    · exact I.rd ph hph
    · rw [List.mem_singleton.mp hph]; trivial

theorem SysOfG.crash (hI : SysOfG G c hc H σ s) (hd : σ.d.doubt = false) {f : File} (hf : Crash c σ.d f) {kw0 : Nat} (hk : kw0 ≤ 16) {d' : PDb}
    (ho : reopen c kw0 f = .ok d') : SysOfG G' c hc H (.init d') s := by
  obtain ⟨hp, h, PE, PT, PK, PF, ix, F, I⟩ := hI
  obtain ⟨d2, k1, k2, -⟩ := crash_recovers ⟨hp, h, PE, PT, PK, PF, ix, F, I.live, I.safe⟩ hd hf hk
  rw [ho] at k1; cases k1
  exact .crashed k2

theorem SysOfG.commitCrash {d : PDb} {r : Registry} {rd : List Phase} {w : PW} {io : Page.IO} {wr : Writer}
    (hI : SysOfG G c hc H ⟨d, r, rd, some (.writing w io wr)⟩ s) (hd : d.doubt = false) {f : File} (hf : CommitCrash c io { w with db := d } f)
    {kw0 : Nat} (hk : kw0 ≤ 16) {d' : PDb} (ho : reopen c kw0 f = .ok d') : (∀ G', SysOfG G' c hc H (.init d') s) ∨ ∃ s', G s s' ∧ ∀ G', SysOfG G' c hc H (.init d') s' := by
  obtain ⟨hp, h, PE, PT, PK, PF, ix, F, I⟩ := hI
  obtain ⟨e, ⟨PE', PT', PK', PF', ix', s', T, hG⟩, -⟩ := I.tx _ rfl
  have hT : Tx c hc H { w with db := d } s (Db.Abs.of H s') := by
    refine ⟨h, PE, PT, PK, PF, ix, F, ?_, ?_, PE', PT', PK', PF', ix', T⟩
    · show LiveAt c hc H d w.hp h PE PT PK PF ix F s
      rw [show w.hp = hp from e]; exact I.live
    · show SafeAt c kw d w.hp h _
      rw [show w.hp = hp from e]; exact I.safe
  obtain ⟨d2, k1, k2, -⟩ := commit_crash_recovers hT hd hf hk
  rw [ho] at k1; cases k1
  rcases k2 with k2 | k2
  · exact .inl fun _ => .crashed k2
  · exact .inr ⟨s', hG, fun _ => .crashed k2⟩

/-- The committed contents of `d` are `s`. -/
def LiveOf (c : Conf) {kw : Nat} (hc : ConfOk c kw) (H : String → TagHash) (d : PDb) (s : Spec.Db) : Prop :=
  ∃ hp h PE PT PK PF ix F, LiveAt c hc H d hp h PE PT PK PF ix F s

theorem SysOfG.liveOf (hI : SysOfG G c hc H σ s) : LiveOf c hc H σ.d s := by
  obtain ⟨hp, h, PE, PT, PK, PF, ix, F, I⟩ := hI
  exact ⟨hp, h, PE, PT, PK, PF, ix, F, I.live⟩

/-- What an open reader sees: the database it looked at. -/
theorem SysOfG.sees {env : Env} (he : EnvOk env) (hI : SysOfG G c hc env.H σ s) {h : Codec.Header} {d0 : PDb} {pend : List (Nat × Codec.Node)}
    (hl : Phase.live h d0 pend ∈ σ.rd) {s0 : Spec.Db} (h0 : LiveOf c hc env.H d0 s0) : ShowsAt c env (σ.d.base c) h s0 := by
  obtain ⟨hp, h1, PE, PT, PK, PF, ix, F, I⟩ := hI
  obtain ⟨-, hp0, PE0, PT0, PK0, PF0, ix0, F0, s1, L0, hk, -⟩ := I.rd _ hl
  obtain ⟨hp1, h2, PE1, PT1, PK1, PF1, ix1, F1, L1⟩ := h0
  obtain ⟨e1, e2, e3, e4⟩ := L0.unique L1
  subst e1 e2 e3
  refine LiveAt.showsAt he L1 fun p n hpn => ?_
  have hpn := (e4 _).mp hpn
  have hb := L0.body (mem_ids_of hpn)
  obtain ⟨hr1, hr2⟩ := (hk _ hpn).1
  unfold PDb.base PDb.read
  rw [if_neg (by omega)]
  cases hcp : σ.d.cache p with
  | some m => simp only [hr2 m hcp]; rfl
  | none => rw [I.live.width, hr1]; rfl

theorem ShowsAt.look {env : Env} {v : Nat → Option Codec.Node} {h : Codec.Header} (hs : ShowsAt c env v h s) (l : Look) :
    lookAt c env v h l = .ok (l.on s) := by
  cases l with
  | read query start backwards limit =>
    simp only [lookAt, hs.reads, Look.on, hs.head]
    cases limit <;> rfl
  | head => simp only [lookAt, Look.on, hs.head]
  | track src => simp only [lookAt, Look.on, hs.track]

/-- The reader has not been returned yet. -/
def Phase.early : Phase → Prop
  | .live _ _ _ | .closed => False
  | _ => True

theorem RStep.confirming {d d' : PDb} {r r' : Registry} {ph ph' : Phase} (h : RStep c d r ph d' r' ph') {b : Codec.Header} {d0 : PDb}
    (hp : Phase.confirming b d0 ph') : Phase.confirming b d0 ph ∨ (Phase.early ph ∧ Phase.early ph' ∧ d0 = d) := by
  cases h with
  | load0 => exact hp.elim
  | load1 => exact hp.elim
  | register => exact hp.elim
  | reload0 => exact .inr ⟨trivial, trivial, hp.2.symm⟩
  | confirm => exact .inl hp
  | outdated => exact hp.elim
  | retry => exact hp.elim
  | fetch => exact .inl hp
  | fill => exact .inl hp
  | close => exact hp.elim

theorem RStep.early {d d' : PDb} {r r' : Registry} {ph ph' : Phase} (h : RStep c d r ph d' r' ph') (hp : Phase.early ph') : Phase.early ph := by
  cases h <;> trivial

end Steps

/-! ## The readers -/

open Classical in
/-- The readers of a world, after the appends `A`. -/
structure RInv (c : Conf) {kw : Nat} (hc : ConfOk c kw) (env : Env) (s : Spec.Db) (A : List Done) (names : List Nat) (rd : List Phase)
    (hist : History) (now : Nat) (τ : Nat → Nat) : Prop where
  width : names.length = rd.length
  nodup : names.Nodup
  opened : ∀ i ∈ names, ∃ t, (t, .opened i) ∈ hist
  looking : ∀ (k i : Nat) (ph : Phase), names[k]? = some i → rd[k]? = some ph →
    (∀ h d0, Phase.confirming h d0 ph → (∃ t0, (t0, .opened i) ∈ hist ∧ t0 < τ i) ∧ τ i ≤ now ∧
      LiveOf c hc env.H d0 (stateAt (Accepted c.g.pageSize) s A (τ i))) ∧
    (Phase.early ph → ∀ t l a, (t, .saw i l a) ∉ hist)
  looks : ∀ t i l a, (t, .saw i l a) ∈ hist → (∃ t0, (t0, .opened i) ∈ hist ∧ t0 < τ i) ∧ τ i < t ∧ τ i ≤ now ∧
    a = l.on (stateAt (Accepted c.g.pageSize) s A (τ i))
  heads : ∀ t h, (t, .announced h) ∈ hist → h = Spec.head (stateAt (Accepted c.g.pageSize) s A t).log

section Readers
open Classical
variable {hc : ConfOk c kw} {env : Env} {s : Spec.Db} {A B : List Done} {names : List Nat} {rd : List Phase} {hist hist' : History} {now : Nat}
  {τ : Nat → Nat}

theorem RInv.init : RInv c hc env s A [] [] [] 0 τ :=
  ⟨rfl, List.nodup_nil, by simp, by simp, by simp, by simp⟩

theorem RInv.next (R : RInv c hc env s A names rd hist now τ) (hp : ∀ x ∈ hist, x.1 ≤ now) (hB : ∀ x ∈ B, x.time = now + 1)
    (hsub : ∀ x ∈ hist, x ∈ hist')
    (hsaw : ∀ t i l a, (t, .saw i l a) ∈ hist' → (t, .saw i l a) ∈ hist ∨
      (t = now + 1 ∧ ∃ (k : Nat) (ph : Phase), names[k]? = some i ∧ rd[k]? = some ph ∧ ¬ Phase.early ph ∧
        (∃ h d0, Phase.confirming h d0 ph) ∧ a = l.on (stateAt (Accepted c.g.pageSize) s A (τ i))))
    (hhead : ∀ t h, (t, .announced h) ∈ hist' → (t, .announced h) ∈ hist ∨
      (t = now + 1 ∧ h = Spec.head (stateAt (Accepted c.g.pageSize) s (A ++ B) (now + 1)).log)) :
    RInv c hc env s (A ++ B) names rd hist' (now + 1) τ := by
  have same : ∀ {t}, t ≤ now → (stateAt (Accepted c.g.pageSize) s (A ++ B) t) =
      (stateAt (Accepted c.g.pageSize) s A t) := by
    intro t ht
    exact stateAt_old fun x hx => by have := hB x hx; omega
  refine ⟨R.width, R.nodup, fun i hi => ?_, fun k i ph hk hph => ⟨fun h d0 hcf => ?_, fun he t l a hs => ?_⟩, fun t i l a hs => ?_, fun t h hh => ?_⟩
  · obtain ⟨t, ht⟩ := R.opened i hi
    exact ⟨t, hsub _ ht⟩
  · obtain ⟨⟨t0, h1, h2⟩, h3, h4⟩ := (R.looking k i ph hk hph).1 h d0 hcf
    exact ⟨⟨t0, hsub _ h1, h2⟩, by omega, by rw [same h3]; exact h4⟩
  · rcases hsaw t i l a hs with hs | ⟨-, k', ph', hk', hph', hne, -⟩
    · exact (R.looking k i ph hk hph).2 he t l a hs
    · have : k = k' := by
        have h1 := List.getElem?_eq_some_iff.mp hk
        obtain ⟨h1, h2⟩ := h1
        obtain ⟨h3, h4⟩ := List.getElem?_eq_some_iff.mp hk'
        exact (R.nodup.getElem_inj_iff).mp (h2.trans h4.symm)
      subst this
      rw [hph] at hph'; cases hph'
      exact hne he
  · rcases hsaw t i l a hs with hs | ⟨rfl, k, ph, hk, hph, -, ⟨h, d0, hcf⟩, ha⟩
    · obtain ⟨⟨t0, h1, h2⟩, h3, h4, h5⟩ := R.looks t i l a hs
      exact ⟨⟨t0, hsub _ h1, h2⟩, h3, by omega, by rw [same h4]; exact h5⟩
    · obtain ⟨⟨t0, h1, h2⟩, h3, h4⟩ := (R.looking k i ph hk hph).1 h d0 hcf
      exact ⟨⟨t0, hsub _ h1, h2⟩, by omega, by omega, by rw [same h3]; exact ha⟩
  · rcases hhead t h hh with hh | ⟨rfl, h1⟩
    · rw [same (hp _ hh)]; exact R.heads t h hh
    · exact h1

theorem RInv.tick (R : RInv c hc env s A names rd hist now τ) (hp : ∀ x ∈ hist, x.1 ≤ now) : RInv c hc env s A names rd hist (now + 1) τ := by
  have := R.next (B := []) hp (by simp) (fun x hx => hx) (fun _ _ _ _ h => .inl h) (fun _ _ h => .inl h)
  rwa [List.append_nil] at this

/-- An event that is neither an answer of a reader nor an announcement. -/
def Happening.plain : Happening → Prop
  | .saw _ _ _ | .announced _ => False
  | _ => True

theorem RInv.note (R : RInv c hc env s A names rd hist now τ) (hp : ∀ x ∈ hist, x.1 ≤ now) (hB : ∀ x ∈ B, x.time = now + 1) {e : Happening}
    (he : Happening.plain e) : RInv c hc env s (A ++ B) names rd (hist ++ [(now + 1, e)]) (now + 1) τ := by
  refine R.next hp hB (fun x hx => List.mem_append_left _ hx) (fun t i l a h => ?_) fun t hd h => ?_
  · rcases mem_note.mp h with h | ⟨-, rfl⟩
    · exact .inl h
    · exact he.elim
  · rcases mem_note.mp h with h | ⟨-, rfl⟩
    · exact .inl h
    · exact he.elim

theorem RInv.drop (R : RInv c hc env s A names rd hist now τ) : RInv c hc env s A [] [] hist now τ :=
  ⟨rfl, List.nodup_nil, by simp, by simp, R.looks, R.heads⟩

theorem RInv.open (R : RInv c hc env s A names rd hist now τ) (hp : ∀ x ∈ hist, x.1 ≤ now) {i : Nat} (hi : ∀ t, (t, .opened i) ∉ hist) :
    RInv c hc env s A (names ++ [i]) (rd ++ [.start]) (hist ++ [(now + 1, .opened i)]) (now + 1) τ := by
  have R' := R.note (B := []) (e := .opened i) hp (by simp) trivial
  rw [List.append_nil] at R'
  refine ⟨by simp [R.width], ?_, fun j hj => ?_, fun k j ph hk hph => ?_, R'.looks, R'.heads⟩
  · rw [List.nodup_append]
    refine ⟨R.nodup, by simp, fun a ha b hb => ?_⟩
    rw [List.mem_singleton.mp hb]
    rintro rfl
    obtain ⟨t, ht⟩ := R.opened _ ha
    exact hi t ht
  · rcases List.mem_append.mp hj with hj | hj
    · exact R'.opened j hj
    · rw [List.mem_singleton.mp hj]
      exact ⟨_, mem_note.mpr (.inr ⟨rfl, rfl⟩)⟩
  · rcases Nat.lt_or_ge k names.length with hlt | hge
    · rw [List.getElem?_append_left hlt] at hk
      rw [List.getElem?_append_left (R.width ▸ hlt)] at hph
      exact R'.looking k j ph hk hph
    · have hlen : k < (names ++ [i]).length := (List.getElem?_eq_some_iff.mp hk).1
      have : k = names.length := by simp at hlen; omega
      subst this
      rw [List.getElem?_concat_length] at hk
      rw [R.width, List.getElem?_concat_length] at hph
      cases hk; cases hph
      refine ⟨fun h d0 hcf => hcf.elim, fun _ t l a hs => ?_⟩
      rcases mem_note.mp hs with hs | ⟨-, hs⟩
      · obtain ⟨⟨t0, h1, -⟩, -⟩ := R.looks t _ l a hs
        exact hi _ h1
      · cases hs

/-- A reader makes a step in a database whose committed contents are the present ones. -/
theorem RInv.step {rd1 rd2 : List Phase} {ph ph' : Phase} {d d' : PDb} {r r' : Registry}
    (R : RInv c hc env s A names (rd1 ++ ph :: rd2) hist now τ) (hp : ∀ x ∈ hist, x.1 ≤ now) (hA : ∀ x ∈ A, x.time ≤ now)
    (hr : RStep c d r ph d' r' ph') (hd : LiveOf c hc env.H d (appendAll (Accepted c.g.pageSize) s (A.map (·.req))).2) :
    ∃ τ', RInv c hc env s A names (rd1 ++ ph' :: rd2) hist (now + 1) τ' := by
  have hk0 : rd1.length < names.length := by rw [R.width]; simp
  obtain ⟨i0, hi0⟩ : ∃ i0, names[rd1.length]? = some i0 := ⟨_, List.getElem?_eq_getElem hk0⟩
  have hph0 : (rd1 ++ ph :: rd2)[rd1.length]? = some ph := by simp
  have uniq : ∀ {k : Nat}, names[k]? = some i0 → k = rd1.length := by
    intro k hk
    obtain ⟨h1, h2⟩ := List.getElem?_eq_some_iff.mp hk
    obtain ⟨h3, h4⟩ := List.getElem?_eq_some_iff.mp hi0
    exact (R.nodup.getElem_inj_iff).mp (h2.trans h4.symm)
  have other : ∀ {k : Nat}, k ≠ rd1.length → (rd1 ++ ph' :: rd2)[k]? = (rd1 ++ ph :: rd2)[k]? := by
    intro k hk
    rcases Nat.lt_or_ge k rd1.length with h | h
    · rw [List.getElem?_append_left h, List.getElem?_append_left h]
    · rw [List.getElem?_append_right h, List.getElem?_append_right h]
      obtain ⟨m, hm⟩ : ∃ m, k - rd1.length = m + 1 := ⟨k - rd1.length - 1, by omega⟩
      rw [hm]; rfl
  have hT := R.tick hp
  have same : ∀ {b b' : Codec.Header} {d0 d1 : PDb}, Phase.confirming b d0 ph' → Phase.confirming b' d1 ph' → d0 = d1 := by
    intro b b' d0 d1 h h'
    cases ph' <;> first | exact h.elim | exact h.2.symm.trans h'.2
  by_cases hnew : Phase.early ph ∧ Phase.early ph' ∧ ∃ b, Phase.confirming b d ph'
  · obtain ⟨e1, e2, b, hb⟩ := hnew
    have unseen := (R.looking _ _ _ hi0 hph0).2 e1
    refine ⟨Function.update τ i0 (now + 1), by rw [R.width]; simp, R.nodup, R.opened, fun k i ph1 hk hph => ?_, fun t i l a hs => ?_, R.heads⟩
    · by_cases hkk : k = rd1.length
      · subst hkk
        rw [hi0] at hk; cases hk
        have : ph1 = ph' := by simpa using hph.symm
        subst this
        refine ⟨fun h d0 hcf => ?_, fun _ => unseen⟩
        rw [Function.update_self]
        obtain ⟨t0, ht0⟩ := R.opened i0 (List.mem_of_getElem? hi0)
        refine ⟨⟨t0, ht0, by have := hp _ ht0; simp only at this; omega⟩, Nat.le_refl _, ?_⟩
        rw [same hcf hb, stateAt_all fun x hx => by have := hA x hx; omega]
        exact hd
      · rw [other hkk] at hph
        have hne : i ≠ i0 := by rintro rfl; exact hkk (uniq hk)
        rw [Function.update_of_ne hne]
        exact hT.looking k i ph1 hk hph
    · have hne : i ≠ i0 := by rintro rfl; exact unseen t l a hs
      rw [Function.update_of_ne hne]
      exact hT.looks t i l a hs
  · refine ⟨τ, by rw [R.width]; simp, R.nodup, R.opened, fun k i ph1 hk hph => ?_, hT.looks, hT.heads⟩
    by_cases hkk : k = rd1.length
    · subst hkk
      have : ph1 = ph' := by simpa using hph.symm
      subst this
      have H := hT.looking _ i _ hk hph0
      refine ⟨fun h d0 hcf => ?_, fun he => H.2 (RStep.early hr he)⟩
      rcases RStep.confirming hr hcf with h1 | ⟨h1, h2, rfl⟩
      · exact H.1 h d0 h1
      · exact absurd ⟨h1, h2, h, hcf⟩ hnew
    · rw [other hkk] at hph
      exact hT.looking k i ph1 hk hph

end Readers

/-! ## The invariant -/

section World
open Classical

/-- `A`: what happened; `js`: the requests of the running transaction, `rs`: the answers they will get. -/
structure WInv (c : Conf) {kw : Nat} (hc : ConfOk c kw) (env : Env) (s : Spec.Db) (W : World) (A : List Done) (js : List Job)
    (rs : List (Except Err Nat)) (τ : Nat → Nat) : Prop where
  book : Book (Accepted c.g.pageSize) s (appendJobs W.queue) js W.out W.now W.hist A
  after : AfterOkAll W.queue
  len : js.length = rs.length
  flight : W.flight = (js.map (·.id)).zip rs
  answers : SaysAll rs (appendAll (Accepted c.g.pageSize) (appendAll (Accepted c.g.pageSize) s (A.map (·.req))).2 (js.map (·.req))).1
  idle : W.sys.tx = none → js = []
  sys : SysOfG (fun _ s' => s' = (appendAll (Accepted c.g.pageSize) (appendAll (Accepted c.g.pageSize) s (A.map (·.req))).2 (js.map (·.req))).2)
    c hc env.H W.sys (appendAll (Accepted c.g.pageSize) s (A.map (·.req))).2
  readers : RInv c hc env s A W.names W.sys.rd W.hist W.now τ

variable {hc : ConfOk c kw} {env : Env} {s : Spec.Db} {W W' : World} {A : List Done} {js : List Job} {rs : List (Except Err Nat)}
  {τ : Nat → Nat}

theorem appendJobs_append (q q' : List Msg) : appendJobs (q ++ q') = appendJobs q ++ appendJobs q' := by
  induction q with
  | nil => rfl
  | cons m q ih => cases m <;> simp [appendJobs, ih]

/-- Nothing running. -/
theorem WInv.rest (hb : Book (Accepted c.g.pageSize) s (appendJobs W.queue) [] W.out W.now W.hist A) (ha : AfterOkAll W.queue) (hf : W.flight = [])
    (hs : SysOfG (fun _ s' => s' = (appendAll (Accepted c.g.pageSize) s (A.map (·.req))).2) c hc env.H W.sys
      (appendAll (Accepted c.g.pageSize) s (A.map (·.req))).2)
    (hr : RInv c hc env s A W.names W.sys.rd W.hist W.now τ) : WInv c hc env s W A [] [] τ :=
  ⟨hb, ha, rfl, hf, trivial, fun _ => rfl, hs, hr⟩

theorem final_append (l : List Job) (t : Nat) (h : l.length = rs.length) :
    (appendAll (Accepted c.g.pageSize) s ((A ++ doneAt t l rs).map (·.req))).2 =
      (appendAll (Accepted c.g.pageSize) (appendAll (Accepted c.g.pageSize) s (A.map (·.req))).2 (l.map (·.req))).2 := by
  rw [List.map_append, doneAt_req h, appendAll_append]

/-- The requests of the running transaction take effect. -/
theorem WInv.land (I : WInv c hc env s W A js rs τ) : ∀ x ∈ A ++ doneAt (W.now + 1) js rs, x.time ≤ W.now + 1 := by
  intro x hx
  rcases List.mem_append.mp hx with hx | hx
  · have := I.book.done x hx; omega
  · have := (mem_doneAt hx).1; omega

theorem WInv.step (he : EnvOk env) (hH : ∀ t, Codec.NormalizedTo kw (env.H t)) (I : WInv c hc env s W A js rs τ) (hs : WStep c env W W') :
    ∃ A' js' rs' τ', WInv c hc env s W' A' js' rs' τ' := by
  have hpast := I.book.past
  cases hs with
  | @quiet σ hq =>
    have hsys := SysOfG.quiet I.sys hq
    have htx : σ.tx = none → W.sys.tx = none := by
      intro h
      generalize W.sys = σ0 at hq
      cases hq <;> first | exact h | cases h
    suffices ∃ τ', RInv c hc env s A W.names σ.rd W.hist (W.now + 1) τ' by
      obtain ⟨τ', hR⟩ := this
      exact ⟨A, js, rs, τ', I.book.tick, I.after, I.len, I.flight, I.answers, fun h => I.idle (htx h), hsys, hR⟩
    have hlive := SysOfG.liveOf I.sys
    have hR := I.readers
    generalize W.sys = σ0 at hq hlive hR
    cases hq with
    | reader hr => exact hR.step hpast I.book.done hr hlive
    | evict p => exact ⟨τ, hR.tick hpast⟩
    | load => exact ⟨τ, hR.tick hpast⟩
    | settle => exact ⟨τ, hR.tick hpast⟩
    | scribble => exact ⟨τ, hR.tick hpast⟩
  | @ask j ha hn =>
    have hq : appendJobs (W.queue ++ [.append j]) = appendJobs W.queue ++ [j] := appendJobs_append _ _
    refine ⟨A, js, rs, τ, ?_, ?_, I.len, I.flight, I.answers, I.idle, I.sys, ?_⟩
    · show Book _ _ (appendJobs (W.queue ++ [.append j])) _ _ _ _ _
      rw [hq]; exact I.book.ask hn
    · intro i hi
      rw [show appendJobs _ = _ from hq] at hi
      rcases List.mem_append.mp hi with hi | hi
      · exact I.after i hi
      · rw [List.mem_singleton.mp hi]; exact ha
    · have := I.readers.note (B := []) (e := .asked j.id j.req) hpast (by simp) trivial
      rwa [List.append_nil] at this
  | @take d r rd j q max vis b q' hσ hqu hb hab =>
    have hjs : js = [] := I.idle (by rw [hσ])
    subst hjs
    have hI := I.sys
    rw [hσ] at hI
    obtain ⟨hp, h, PE, PT, PK, PF, ix, F, J⟩ := hI
    have hL : (pageLawful hc hH).RepD { d with oldest := r.min } (appendAll (Accepted c.g.pageSize) s (A.map (·.req))).2 :=
      ⟨hp, h, PE, PT, PK, PF, ix, F, J.live.recache (fun _ _ h => .inl h) _, J.safe.recache _ _⟩
    obtain ⟨js, hjobs, -, hbi⟩ := hb.binv he (pageLawful hc hH) hL (hqu ▸ I.after)
    refine ⟨A, js, b.results, τ, ?_, ?_, hbi.len.symm, ?_, (hbi.good hab).2, (fun h => by cases h), ?_, ?_⟩
    · have hB := I.book.tick
      rw [hqu, hjobs] at hB
      exact hB.take
    · intro i hi
      refine I.after i ?_
      rw [hqu, hjobs]
      exact List.mem_append_right _ hi
    · show b.responders.zip b.results = _
      rw [hbi.resp]
    · exact J.begin hb.db (hbi.good hab).1 rfl
    · have := I.readers.tick hpast
      rw [hσ] at this
      exact this
  | @abort d r rd j q max vis b q' i e hσ hqu hb hab =>
    have hjs : js = [] := I.idle (by rw [hσ])
    subst hjs
    have hI := I.sys
    rw [hσ] at hI
    obtain ⟨hp, h, PE, PT, PK, PF, ix, F, J⟩ := hI
    have hL : (pageLawful hc hH).RepD { d with oldest := r.min } (appendAll (Accepted c.g.pageSize) s (A.map (·.req))).2 :=
      ⟨hp, h, PE, PT, PK, PF, ix, F, J.live.recache (fun _ _ h => .inl h) _, J.safe.recache _ _⟩
    obtain ⟨js, hjobs, -, hbi⟩ := hb.binv he (pageLawful hc hH) hL (hqu ▸ I.after)
    have hrs : rs = [] := List.eq_nil_of_length_eq_zero I.len.symm
    subst hrs
    refine ⟨A, [], [], τ, WInv.rest ?_ ?_ I.flight I.sys (I.readers.tick hpast)⟩
    · have hB := I.book.tick
      rw [hqu, hjobs] at hB
      refine hB.take.refuse (by rw [abortAnswers_fst, hbi.resp]) fun y hy => ?_
      simp only [abortAnswers, List.mem_map] at hy
      obtain ⟨x, -, rfl⟩ := hy
      have hf := (hbi.bad i e hab).1
      simp only
      split
      · exact failure_of_fatal hf
      · exact failure_of_fatal (fatal_shadow hf)
    · intro i hi
      refine I.after i ?_
      rw [hqu, hjobs]
      exact List.mem_append_right _ hi
  | @finish d r rd w io wr d' hσ hcm =>
    have hI := I.sys
    rw [hσ] at hI
    rcases hI.finish (fun _ s' => s' = (appendAll (Accepted c.g.pageSize) s ((A ++ doneAt (W.now + 1) js rs).map (·.req))).2) hcm with
      ⟨-, s', hs1, h2, h3⟩ | ⟨e, h1, -⟩
    swap
    · cases h1
    rw [← final_append js (W.now + 1) I.len] at h2
    subst h2
    refine ⟨A ++ doneAt (W.now + 1) js rs, [], [], τ, WInv.rest ?_ I.after rfl hs1 ?_⟩
    · have := (I.book.land I.len I.answers).noteNow (fun x hx => by have := hpast x hx; omega)
        (.announced (headOfNext w.wr.nextPos)) (fun _ _ h => by cases h)
      show Book _ _ _ _ (W.out ++ W.flight) _ _ _
      rw [I.flight]
      exact this
    · have hR := I.readers
      rw [hσ] at hR
      refine hR.next hpast (fun x hx => (mem_doneAt hx).1) (fun x hx => List.mem_append_left _ hx) (fun t i l a h => ?_) fun t hd h => ?_
      · rcases mem_note.mp h with h | ⟨-, h⟩
        · exact .inl h
        · cases h
      · rcases mem_note.mp h with h | ⟨rfl, h1⟩
        · exact .inl h
        · cases h1
          refine .inr ⟨rfl, ?_⟩
          rw [stateAt_all I.land, h3, headOfNext_eq]
  | @fail d r rd w io wr d' e hσ hcm =>
    have hI := I.sys
    rw [hσ] at hI
    rcases hI.finish (fun _ s' => s' = (appendAll (Accepted c.g.pageSize) s (A.map (·.req))).2) hcm with
      ⟨h1, -⟩ | ⟨e', h1, h2, h3⟩
    · cases h1
    cases h1
    refine ⟨A, [], [], τ, WInv.rest ?_ I.after rfl h3 ?_⟩
    · show Book _ _ _ _ (W.out ++ W.flight.map fun x => (x.1, .error e)) _ _ _
      rw [I.flight]
      refine I.book.tick.refuse ?_ fun y hy => ?_
      · rw [List.map_map]
        exact List.map_fst_zip (by simp [I.len])
      · obtain ⟨x, -, rfl⟩ := List.mem_map.mp hy
        exact failure_of_fatal h2
    · have := I.readers.tick hpast
      rw [hσ] at this
      exact this
  | @answer l x l' ho =>
    refine ⟨A, js, rs, τ, ?_, I.after, I.len, I.flight, I.answers, I.idle, I.sys, ?_⟩
    · have := I.book
      rw [ho] at this
      exact this.answer
    · have := I.readers.note (B := []) (e := .answered x.1 x.2) hpast (by simp) trivial
      rwa [List.append_nil] at this
  | @«open» i hi =>
    exact ⟨A, js, rs, τ, I.book.note _ (fun _ _ h => by cases h), I.after, I.len, I.flight, I.answers, I.idle, SysOfG.arrive I.sys,
      I.readers.open hpast hi⟩
  | @look k i h d0 pend l a hk hph hl =>
    have hlk := (I.readers.looking k i _ hk hph).1 h d0 ⟨rfl, rfl⟩
    have ha := SysOfG.sees he I.sys (List.mem_of_getElem? hph) hlk.2.2
    rw [ShowsAt.look ha l] at hl
    refine ⟨A, js, rs, τ, I.book.note _ (fun _ _ h => by cases h), I.after, I.len, I.flight, I.answers, I.idle, I.sys, ?_⟩
    have := I.readers.next (B := []) (hist' := W.hist ++ [(W.now + 1, .saw i l a)]) hpast (by simp) (fun x hx => List.mem_append_left _ hx)
      (fun t i' l' a' h => ?_) fun t hd h => ?_
    · rwa [List.append_nil] at this
    · rcases mem_note.mp h with h | ⟨rfl, h1⟩
      · exact .inl h
      · cases h1
        exact .inr ⟨rfl, k, _, hk, hph, fun h => h, ⟨_, _, rfl, rfl⟩, by cases hl; rfl⟩
    · rcases mem_note.mp h with h | ⟨-, h⟩
      · exact .inl h
      · cases h
  | @crash f kw0 d' hd hf hk ho =>
    refine ⟨A, [], [], τ, WInv.rest (I.book.note _ (fun _ _ h => by cases h)).drop (by intro i hi; cases hi) rfl (SysOfG.crash I.sys hd hf hk ho) ?_⟩
    have := I.readers.note (B := []) (e := .crashed) hpast (by simp) trivial
    rw [List.append_nil] at this
    exact this.drop
  | @commitCrash d r rd w io wr f kw0 d' hσ hd hf hk ho =>
    have hI := I.sys
    rw [hσ] at hI
    rcases SysOfG.commitCrash hI hd hf hk ho with h | ⟨s', hG, h⟩
    · refine ⟨A, [], [], τ, WInv.rest (I.book.note _ (fun _ _ h => by cases h)).drop (by intro i hi; cases hi) rfl (h _) ?_⟩
      have := I.readers.note (B := []) (e := .crashed) hpast (by simp) trivial
      rw [List.append_nil] at this
      exact this.drop
    · rw [← final_append js (W.now + 1) I.len] at hG
      subst hG
      refine ⟨A ++ doneAt (W.now + 1) js rs, [], [], τ, WInv.rest ?_ (by intro i hi; cases hi) rfl (h _) ?_⟩
      · exact ((I.book.land I.len I.answers).noteNow (fun x hx => by have := hpast x hx; omega) .crashed (fun _ _ h => by cases h)).drop
      · exact (I.readers.note (e := .crashed) hpast (fun x hx => (mem_doneAt hx).1) trivial).drop

theorem WInv.linear (I : WInv c hc env s W A js rs τ) : Linear (Accepted c.g.pageSize) s W.hist A τ :=
  ⟨I.book.clock, I.book.sorted, I.book.once, I.book.legal, I.book.asked, I.book.answered, I.book.onceAnswered, I.book.askedFirst,
    fun t i l a h => by obtain ⟨h1, h2, -, h3⟩ := I.readers.looks t i l a h; exact ⟨h1, h2, h3⟩, I.readers.heads⟩

theorem winv {d : PDb} (he : EnvOk env) (hH : ∀ t, Codec.NormalizedTo kw (env.H t)) (hd : LiveS c hc env.H d s)
    (hw : Worlds c env (.init d) W) : ∃ A js rs τ, WInv c hc env s W A js rs τ := by
  induction hw with
  | refl => exact ⟨[], [], [], fun _ => 0, .rest .init (by intro i hi; cases hi) rfl (.crashed hd) .init⟩
  | tail _ hs ih =>
    obtain ⟨A, js, rs, τ, I⟩ := ih
    exact I.step he hH hs

end World

/-! ## C58 -/

open Classical in
/-- C58.  Calls from many threads overlap, and the process may be killed or the machine lose power at any moment, any number of times.
Whatever the clients see, there is an order in which the appends happened one after the other, each in an instant between its beginning
and its end, and the database then is what those appends make of it.  An append that is answered happened, with that answer, or the answer
is a failure and nothing happened; each reader sees the database of one instant after it was asked for. -/
theorem C58_linearizable {env : Env} (he : EnvOk env) (hc : ConfOk c kw) (hH : ∀ t, Codec.NormalizedTo kw (env.H t)) {d : PDb} {s : Spec.Db}
    (hd : LiveS c hc env.H d s) {W : World} (hw : Worlds c env (.init d) W) :
    ∃ A τ, Linear (Accepted c.g.pageSize) s W.hist A τ ∧
      Shows c env W.sys.d (appendAll (Accepted c.g.pageSize) s (A.map (·.req))).2 := by
  obtain ⟨A, js, rs, τ, I⟩ := winv he hH hd hw
  obtain ⟨hp, h, PE, PT, PK, PF, ix, F, J⟩ := I.sys
  exact ⟨A, τ, I.linear, shows he hc hH ⟨hp, h, PE, PT, PK, PF, ix, F, J.live, J.safe⟩⟩

/-- What the instants mean for the order of calls: an append that was answered, not with a failure, before another one was called comes before it;
and a reader asked for after that answer sees what was appended. -/
theorem C58_real_time {valid : Record → Prop} [DecidablePred valid] {s : Spec.Db} {hist : History} {A : List Done} {τ : Nat → Nat}
    (hl : Linear valid s hist A τ) {t id : Nat} {a : Except Err Nat} (ha : (t, .answered id a) ∈ hist) (hf : ¬ Failure a) :
    ∃ x ∈ A, x.id = id ∧ x.ans = a ∧ x.time < t ∧
      (∀ y ∈ A, (∀ t' req, (t', .asked y.id req) ∈ hist → t < t') → x.time < y.time) ∧
      (∀ t1 i l o, (t1, .saw i l o) ∈ hist → (∀ t0, (t0, .opened i) ∈ hist → t < t0) →
        ∃ A1 A2, o = l.on (appendAll valid s (A1 ++ x.req :: A2)).2) := by
  rcases hl.answered t id a ha with ⟨x, hx, h1, h2, h3⟩ | ⟨h, -⟩
  swap
  · exact absurd h hf
  refine ⟨x, hx, h1, h2, h3, fun y hy hlate => ?_, fun t1 i l o hs hlate => ?_⟩
  · obtain ⟨t', h4, h5⟩ := hl.asked y hy
    have := hlate _ _ h4
    omega
  · obtain ⟨⟨t0, h4, h5⟩, -, ho⟩ := hl.looks t1 i l o hs
    have := hlate _ h4
    have hm : x ∈ A.filter fun x => decide (x.time ≤ τ i) := List.mem_filter.mpr ⟨hx, by simp; omega⟩
    obtain ⟨A1, A2, e⟩ := List.append_of_mem hm
    refine ⟨A1.map (·.req), A2.map (·.req), ?_⟩
    rw [ho]
    unfold stateAt
    rw [e, List.map_append, List.map_cons]

section Examples

theorem exReader {W : World} {d : PDb} {r : Registry} {rd : List Phase} {tx : Option Busy} {h : Codec.Header} (hd : observe d.m.h0 d.m.h1 = .ok h)
    (hW : W.sys = ⟨d, r, rd ++ [.start], tx⟩) :
    Worlds exConf exConstEnv W { W with sys := ⟨d, r.register h.tsn, rd ++ [.live h d []], tx⟩, now := W.now + 5 } := by
  have step : ∀ {r1 r2 : Registry} {ph ph' : Phase} {n : Nat}, RStep exConf d r1 ph d r2 ph' →
      WStep exConf exConstEnv { W with sys := ⟨d, r1, rd ++ [ph], tx⟩, now := W.now + n }
        { W with sys := ⟨d, r2, rd ++ [ph'], tx⟩, now := W.now + (n + 1) } := by
    intro r1 r2 ph ph' n h
    exact .quiet (.reader (rd := rd) (rd' := []) h)
  have e : W = { W with sys := ⟨d, r, rd ++ [.start], tx⟩, now := W.now + 0 } := by rw [← hW]; rfl
  have := ((((Relation.ReflTransGen.single (step (n := 0) (.load0 d r))).tail (step (.load1 hd))).tail (step (.register _ _ _))).tail
    (step (.reload0 _ _ _))).tail (step (.confirm hd rfl))
  rw [← e] at this
  exact this

/-- A reader is opened while `exReq` is being written and looks only when that has been answered: it sees the old database, its instant lies
before that of the append.  One opened afterwards sees the new database. -/
theorem exHistory : ∃ (d : PDb) (W : World), LiveS exConf exConf_ok exConstEnv.H d Spec.Db.empty ∧ Worlds exConf exConstEnv (.init d) W ∧
    W.hist = [(1, .asked 1 exReq), (3, .opened 7), (10, .announced (some 2)), (11, .answered 1 (.ok 2)), (12, .saw 7 .head (.position none)),
      (13, .opened 8), (19, .saw 8 (.read none none false none) ((Look.read none none false none).on exAfter))] := by
  obtain ⟨m, f, hcr, hS⟩ := create_liveS exConf_ok exConstEnv.H
  obtain ⟨m', f', d, d', b, hcr', hd1, hd, ha, -, hB, hab, hres, -, -, hcom, hd', -⟩ := exCommittedAt none
  rw [hcr'] at hcr
  cases hcr
  subst hd1
  have he : EnvOk exConstEnv := ⟨fun l => List.Perm.refl l⟩
  set d := PDb.fresh f m f [] none with hdd
  obtain ⟨wr, hrun⟩ : ∃ wr, processFreed exIO.ord b.w.wr = (.ok (), wr) := by
    unfold PW.commit at hcom
    generalize processFreed exIO.ord b.w.wr = x at hcom ⊢
    match x, hcom with
    | (.ok (), wr), _ => exact ⟨wr, rfl⟩
    | (.error e, wr), hcom => cases hcom
  have hfin : commitPages exConf { exIO with oldest := none } b.w.hp wr d = (.ok (), d') := by
    unfold PW.commit at hcom
    rw [hrun, hB.db] at hcom
    exact hcom
  obtain ⟨hp, h, PE, PT, PK, PF, ix, F, L, -⟩ := hS.live
  obtain ⟨hp', h', PE', PT', PK', PF', ix', F', L', S'⟩ := hd'
  have hj : ({ d with oldest := Registry.min [] } : PDb) = d := rfl
  have hresp : b.responders = [1] := by
    obtain ⟨js, h1, h2, -⟩ := hB.binv he (pageLawful exConf_ok exConstEnv_width) hd ha
    have h1 : [⟨1, exReq, noCancel⟩] = js ++ [] := h1
    rw [List.append_nil] at h1
    rw [h2, ← h1]; rfl
  -- the steps
  have w1 : Worlds exConf exConstEnv (.init d) _ := .single (.ask (j := ⟨1, exReq, noCancel⟩) (ha _ (by simp [appendJobs])) (by simp [World.init]))
  have w2 := w1.tail (.take (d := d) (r := []) (rd := []) (q := []) rfl rfl hB hab)
  have w3 := w2.tail (.open (i := 7) (by simp [World.note, World.silent, World.init]))
  have w4 := w3.trans (exReader (d := d) (rd := []) L.header_eq rfl)
  have w5 := w4.tail (.quiet (.settle (io := { exIO with oldest := none }) hrun))
  obtain ⟨A, js, rs, τ, I⟩ := winv he exConstEnv_width hS w5
  have w6 := w5.tail (.finish rfl hfin)
  have hhead : headOfNext b.w.wr.nextPos = some 2 := by
    rcases (I.sys).finish (fun _ _ => True) hfin with ⟨-, s', ⟨hp2, h2, PE2, PT2, PK2, PF2, ix2, F2, I2⟩, -, h3⟩ | ⟨e, h1, -⟩
    · rw [h3, headOfNext_eq]
      have k1 := (shows he exConf_ok exConstEnv_width ⟨hp2, h2, PE2, PT2, PK2, PF2, ix2, F2, I2.live, I2.safe⟩).head
      have k2 := (shows he exConf_ok exConstEnv_width ⟨hp', h', PE', PT', PK', PF', ix', F', L', S'⟩).head
      exact (k1.symm.trans k2).trans rfl
    · cases h1
  have w7 := w6.tail (.answer (l := []) (x := (1, .ok 2)) (l' := []) (by
    show [] ++ b.responders.zip b.results = _
    rw [hresp, hres]; rfl))
  have w8 := w7.tail (.look (k := 0) (i := 7) (l := .head) (a := .position none) rfl rfl ((LiveAt.showsAt he L L.sees).look .head))
  have w9 := w8.tail (.open (i := 8) (by simp [World.note, World.silent, World.init]))
  have w10 := w9.trans (exReader (d := d') (rd := [.live h d []]) L'.header_eq rfl)
  have w11 := w10.tail (.look (k := 1) (i := 8) rfl rfl ((LiveAt.showsAt he L' L'.sees).look (.read none none false none)))
  refine ⟨d, _, hS, w11, ?_⟩
  simp [World.note, World.silent, World.init, hhead]

end Examples

end Uma.Props
