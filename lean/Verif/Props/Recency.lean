import Verif.Props.Readers

/-!
# Reads see what came before them: C53

For every execution of readers, the writer and crashes (`Verif/Page/Readers.lean`).
-/

namespace Uma.Props
open Uma.Spec Uma.Db Uma.Page Uma.Mvcc

variable {c : Conf} {kw : Nat}

/-- Whoever sees `s'` sees everything in `s`: the same events at the same positions, then perhaps more, and tracking
positions at least as high. -/
def Later (s s' : Spec.Db) : Prop :=
  sequenced s.log <+: sequenced s'.log ∧ ∀ src p, s.track src = some p → ∃ p', s'.track src = some p' ∧ p ≤ p'

theorem numberFrom_append {α : Type} (l l' : List α) : ∀ n, numberFrom n (l ++ l') = numberFrom n l ++ numberFrom (n + l.length) l' := by
  induction l with
  | nil => intro n; simp [numberFrom]
  | cons a l ih =>
    intro n
    simp only [List.cons_append, numberFrom, ih, List.length_cons]
    rw [show n + 1 + l.length = n + (l.length + 1) by omega]

theorem Grown.later {s s' : Spec.Db} (h : Grown s s') : Later s s' := by
  refine ⟨?_, h.2⟩
  obtain ⟨t, ht⟩ := h.1
  rw [← ht]
  unfold sequenced
  rw [numberFrom_append, List.map_append]
  exact List.prefix_append _ _

theorem Later.trans {s s' s'' : Spec.Db} (h : Later s s') (h' : Later s' s'') : Later s s'' :=
  ⟨h.1.trans h'.1, fun src p hp => by
    obtain ⟨p', h1, h2⟩ := h.2 src p hp
    obtain ⟨p'', h3, h4⟩ := h'.2 src p' h1
    exact ⟨p'', h3, Nat.le_trans h2 h4⟩⟩

theorem read_all (log : Log) : Spec.read log ⟨[]⟩ none false none = sequenced log := by
  unfold Spec.read
  simp only [applyLimit, InRange, Matches, Bool.false_eq_true, if_false]
  rw [List.filter_eq_self]
  intro a _
  exact decide_eq_true trivial

/-- What is seen is determined. -/
theorem Shows.later {env : Env} {d : PDb} {s s' : Spec.Db} (h : Shows c env d s) (h' : Shows c env d s') : Later s s' := by
  refine ⟨?_, fun src p hp => ⟨p, ?_, Nat.le_refl _⟩⟩
  · obtain ⟨_, h1⟩ := h.reads none none false none
    obtain ⟨_, h2⟩ := h'.reads none none false none
    rw [h1] at h2
    have := congrArg Prod.fst (Except.ok.inj h2)
    simp only [Option.getD_none, read_all] at this
    rw [this]
  · rw [← Except.ok.inj ((h.track src).symm.trans (h'.track src))]; exact hp

theorem ShowsAt.later {env : Env} {v : Nat → Option Codec.Node} {h : Codec.Header} {s s' : Spec.Db} (hs : ShowsAt c env v h s)
    (hs' : ShowsAt c env v h s') : Later s s' := by
  refine ⟨?_, fun src p hp => ⟨p, ?_, Nat.le_refl _⟩⟩
  · have h1 := hs.reads ⟨[]⟩ none false none
    rw [hs'.reads ⟨[]⟩ none false none] at h1
    have := Except.ok.inj h1
    simp only [read_all] at this
    rw [this]
  · rw [← Except.ok.inj ((hs.track src).symm.trans (hs'.track src))]; exact hp

/-- The reader looked, or is looking, at the headers a second time. -/
def Phase.confirming (h : Codec.Header) (d0 : PDb) : Phase → Prop
  | .re0 h' _ d' | .live h' d' _ => h' = h ∧ d' = d0
  | _ => False

/-- A reader that arrived after `σ0` looked at the headers after `σ0`. -/
theorem looked_since {env : Env} {σ0 σ : Sys} (hr : Runs c env σ0 σ) {i : Nat} (hi : σ0.rd.length ≤ i) {ph : Phase}
    (hl : σ.rd[i]? = some ph) {h : Codec.Header} {d0 : PDb} (hp : Phase.confirming h d0 ph) :
    ∃ τ, Runs c env σ0 τ ∧ Runs c env τ σ ∧ τ.d = d0 := by
  induction hr generalizing ph with
  | refl => rw [List.getElem?_eq_none hi] at hl; cases hl
  | @tail τ σ hr hs ih =>
    have same : (∃ ph, τ.rd[i]? = some ph ∧ Phase.confirming h d0 ph) → ∃ τ, Runs c env σ0 τ ∧ Runs c env τ σ ∧ τ.d = d0 := by
      rintro ⟨ph, h1, h2⟩
      obtain ⟨τ', k1, k2, k3⟩ := ih h1 h2
      exact ⟨τ', k1, k2.tail hs, k3⟩
    have hs' := hs
    cases hs with
    | arrive =>
      refine same ⟨ph, ?_, hp⟩
      simp only at hl
      rcases Nat.lt_or_ge i τ.rd.length with h1 | h1
      · rwa [List.getElem?_append_left h1] at hl
      · rw [List.getElem?_append_right h1] at hl
        have := List.mem_of_getElem? hl
        simp only [List.mem_singleton] at this
        subst this
        exact hp.elim
    | @reader d r rd rd' ph0 d' r' ph' tx hr' =>
      by_cases hne : i = rd.length
      · subst hne
        simp at hl
        subst hl
        have keep : Phase.confirming h d0 ph0 → ∃ τ', Runs c env σ0 τ' ∧ Runs c env τ' ⟨d', r', rd ++ ph' :: rd', tx⟩ ∧ τ'.d = d0 :=
          fun h1 => same ⟨ph0, by simp, h1⟩
        cases hr' with
        | load0 => exact hp.elim
        | load1 => exact hp.elim
        | register => exact hp.elim
        | reload0 =>
          obtain ⟨rfl, rfl⟩ := hp
          exact ⟨_, hr, .single hs', rfl⟩
        | confirm => exact keep hp
        | outdated => exact hp.elim
        | retry => exact hp.elim
        | fetch => exact keep hp
        | fill => exact keep hp
        | close => exact hp.elim
      · refine same ⟨ph, ?_, hp⟩
        simp only at hl ⊢
        rcases Nat.lt_or_ge i rd.length with h1 | h1
        · rw [List.getElem?_append_left h1] at hl ⊢
          exact hl
        · rw [List.getElem?_append_right h1] at hl ⊢
          obtain ⟨k, hk⟩ : ∃ k, i - rd.length = k + 1 := ⟨i - rd.length - 1, by omega⟩
          rw [hk] at hl ⊢
          simpa using hl
    | evict => exact same ⟨ph, hl, hp⟩
    | load => exact same ⟨ph, hl, hp⟩
    | batch => exact same ⟨ph, hl, hp⟩
    | append => exact same ⟨ph, hl, hp⟩
    | settle => exact same ⟨ph, hl, hp⟩
    | scribble => exact same ⟨ph, hl, hp⟩
    | finish => exact same ⟨ph, hl, hp⟩
    | crash => simp [Sys.init] at hl
    | commitCrash => simp [Sys.init] at hl

/-- What an open reader sees: the committed database of the moment it looked at the headers the second time. -/
theorem reader_shows {env : Env} (he : EnvOk env) (hc : ConfOk c kw) (hH : ∀ t, Codec.NormalizedTo kw (env.H t)) {σ τ : Sys} {s0 : Spec.Db}
    (hτ : SysOf c hc env.H τ s0) (hr : Runs c env τ σ) {h : Codec.Header} {pend : List (Nat × Codec.Node)}
    (hl : Phase.live h τ.d pend ∈ σ.rd) : ShowsAt c env (σ.d.base c) h s0 := by
  obtain ⟨s, ⟨hp, h1, PE, PT, PK, PF, ix, F, I⟩, -⟩ := hτ.runs he hH hr
  obtain ⟨-, hp0, PE0, PT0, PK0, PF0, ix0, F0, s1, L0, hk, -⟩ := I.rd _ hl
  obtain ⟨hp1, h2, PE1, PT1, PK1, PF1, ix1, F1, I1⟩ := hτ
  obtain ⟨e1, e2, e3, e4⟩ := L0.unique I1.live
  subst e1 e2 e3
  refine LiveAt.showsAt he I1.live fun p n hpn => ?_
  have hpn := (e4 _).mp hpn
  have hb := L0.body (mem_ids_of hpn)
  obtain ⟨hr1, hr2⟩ := (hk _ hpn).1
  unfold PDb.base PDb.read
  rw [if_neg (by omega)]
  cases hcp : σ.d.cache p with
  | some m => simp only [hr2 m hcp]; rfl
  | none => rw [I.live.width, hr1]; rfl

/-- C53: a reader opened after the moment `σ1` sees all that a new reader would have seen at that moment. -/
theorem C53_real_time {env : Env} (he : EnvOk env) (hc : ConfOk c kw) (hH : ∀ t, Codec.NormalizedTo kw (env.H t)) {d : PDb}
    {s : Spec.Db} (hd : LiveS c hc env.H d s) {σ1 σ : Sys} (h1 : Runs c env (.init d) σ1) {s1 : Spec.Db} (hs1 : Shows c env σ1.d s1)
    (h2 : Runs c env σ1 σ) {i : Nat} (hi : σ1.rd.length ≤ i) {h : Codec.Header} {d0 : PDb} {pend : List (Nat × Codec.Node)}
    (hl : σ.rd[i]? = some (.live h d0 pend)) : ∃ s0, ShowsAt c env (σ.d.base c) h s0 ∧ Later s1 s0 := by
  obtain ⟨s1', k1, -⟩ := (SysOf.crashed hd).runs he hH h1
  obtain ⟨τ, t1, t2, rfl⟩ := looked_since h2 hi hl (h := h) (d0 := d0) ⟨rfl, rfl⟩
  obtain ⟨s0, k2, k3⟩ := k1.runs he hH t1
  refine ⟨s0, reader_shows he hc hH k2 t2 (List.mem_of_getElem? hl), ?_⟩
  obtain ⟨hp, h1, PE, PT, PK, PF, ix, F, I⟩ := k1
  exact (hs1.later (shows he hc hH ⟨hp, h1, PE, PT, PK, PF, ix, F, I.live, I.safe⟩)).trans k3.later

/-- C53: a reader opened after another one sees all that the other one sees. -/
theorem C53_monotonic_reads {env : Env} (he : EnvOk env) (hc : ConfOk c kw) (hH : ∀ t, Codec.NormalizedTo kw (env.H t)) {d : PDb}
    {s : Spec.Db} (hd : LiveS c hc env.H d s) {σ1 σ : Sys} (h1 : Runs c env (.init d) σ1) {g : Codec.Header} {dg : PDb}
    {pg : List (Nat × Codec.Node)} (hg : .live g dg pg ∈ σ1.rd) {s1 : Spec.Db} (hs1 : ShowsAt c env (σ1.d.base c) g s1)
    (h2 : Runs c env σ1 σ) {i : Nat} (hi : σ1.rd.length ≤ i) {h : Codec.Header} {d0 : PDb} {pend : List (Nat × Codec.Node)}
    (hl : σ.rd[i]? = some (.live h d0 pend)) : ∃ s0, ShowsAt c env (σ.d.base c) h s0 ∧ Later s1 s0 := by
  obtain ⟨τ, t1, t2, rfl, -⟩ := live_since h1 rfl (.inl ⟨pg, hg⟩)
  obtain ⟨sg, k1, -⟩ := (SysOf.crashed hd).runs he hH t1
  obtain ⟨s1', k2, k3⟩ := k1.runs he hH t2
  obtain ⟨τ', t3, t4, rfl⟩ := looked_since h2 hi hl (h := h) (d0 := d0) ⟨rfl, rfl⟩
  obtain ⟨s0, k4, k5⟩ := k2.runs he hH t3
  exact ⟨s0, reader_shows he hc hH k4 t4 (List.mem_of_getElem? hl),
    (hs1.later (reader_shows he hc hH k1 t2 hg)).trans (k3.trans k5).later⟩

/-- By the time of `σ` an append had been answered with the position `p`, or `p` announced as the head: the transaction was
committed, and the answers are sent and the head is announced after that (writer_thread_blocking.rs 152-173, db.rs 214-239). -/
inductive Acked (c : Conf) (env : Env) (σ0 : Sys) : Sys → Nat → Prop
  | batch {d r rd max vis j q b q' d2 r2 rd2 io wr d3 p} : Runs c env σ0 ⟨d, r, rd, none⟩ → AfterOkAll (.append j :: q) →
      Builds (pageBackend c) env max vis { d with oldest := r.min } j q b q' → b.abort = none →
      Runs c env ⟨{ d with oldest := r.min }, r, rd, some (.built b.w)⟩ ⟨d2, r2, rd2, some (.writing b.w io wr)⟩ →
      commitPages c io b.w.hp wr d2 = (.ok (), d3) → (.ok p ∈ b.results ∨ headOfNext b.w.wr.nextPos = some p) → Acked c env σ0 ⟨d3, r2, rd2, none⟩ p
  | append {d r rd req w p w' d2 r2 rd2 io wr d3} : Runs c env σ0 ⟨d, r, rd, none⟩ → AfterOk req →
      PDb.writer c { d with oldest := r.min } = .ok w →
      Db.processAppend (pageBackend c) env req (fun _ => Cancel.never) w = (.ok p, w') →
      Runs c env ⟨{ d with oldest := r.min }, r, rd, some (.built w')⟩ ⟨d2, r2, rd2, some (.writing w' io wr)⟩ →
      commitPages c io w'.hp wr d2 = (.ok (), d3) → Acked c env σ0 ⟨d3, r2, rd2, none⟩ p
  | later {σ σ' p} : Acked c env σ0 σ p → Runs c env σ σ' → Acked c env σ0 σ' p

open Classical in
/-- Positions that were answered are in the committed database. -/
theorem Acked.committed {env : Env} (he : EnvOk env) (hc : ConfOk c kw) (hH : ∀ t, Codec.NormalizedTo kw (env.H t)) {d : PDb}
    {s : Spec.Db} (hd : LiveS c hc env.H d s) {σ : Sys} {p : Nat} (ha : Acked c env (.init d) σ p) :
    Runs c env (.init d) σ ∧ ∃ s1, SysOf c hc env.H σ s1 ∧ p ≤ s1.log.length := by
  induction ha with
  | @batch d r rd max vis j q b q' d2 r2 rd2 io wr d3 p h1 ha hb hab h2 hcom hp =>
    have hrun := ((h1.tail (.batch ha hb hab)).trans h2)
    refine ⟨hrun.tail (.finish hcom), ?_⟩
    obtain ⟨s1, ⟨hp1, hh1, PE, PT, PK, PF, ix, F, I⟩, -⟩ := (SysOf.crashed hd).runs he hH h1
    have hL : (pageLawful hc hH).RepD { d with oldest := r.min } s1 :=
      ⟨hp1, hh1, PE, PT, PK, PF, ix, F, I.live.recache (fun _ _ h => .inl h) _, I.safe.recache _ _⟩
    obtain ⟨js, -, -, hbi⟩ := hb.binv he (pageLawful hc hH) hL ha
    obtain ⟨hrep, hsay⟩ := hbi.good hab
    obtain ⟨_, _, _, _, _, _, _, _, _, _, _, _, _, _, T⟩ := hrep
    have hn := T.nextPos
    obtain ⟨s2, k1, -⟩ := (SysOf.crashed hd).runs he hH hrun
    obtain ⟨s3, k2, -, k3⟩ := k1.finish hcom
    refine ⟨s3, k2, ?_⟩
    have hk3 := k3 () rfl
    rcases hp with hp | hp
    · obtain ⟨tr, -, t2, t3⟩ := appendAll_trace _ _ _ hsay
      obtain ⟨x, hx, hxp⟩ : ∃ x ∈ tr ++ [], x.2.1 = .ok p := by
        rw [← t2] at hp
        obtain ⟨x, hx, e⟩ := List.mem_map.mp hp
        exact ⟨x, by simpa using hx, e⟩
      have hle := trace_ok_le (t3 .nil) hx hxp
      simp only [Abs.of] at hn
      omega
    · unfold headOfNext at hp
      split at hp
      · cases hp
      · have := Option.some.inj hp
        omega
  | @append d r rd req w p w' d2 r2 rd2 io wr d3 h1 ha hw hpa h2 hcom =>
    have hrun := ((h1.tail (.append ha hw hpa)).trans h2)
    refine ⟨hrun.tail (.finish hcom), ?_⟩
    obtain ⟨s1, ⟨hp1, hh1, PE, PT, PK, PF, ix, F, I⟩, -⟩ := (SysOf.crashed hd).runs he hH h1
    have hL : (pageLawful hc hH).RepD { d with oldest := r.min } s1 :=
      ⟨hp1, hh1, PE, PT, PK, PF, ix, F, I.live.recache (fun _ _ h => .inl h) _, I.safe.recache _ _⟩
    rcases (pageLawful hc hH).begin hL with ⟨w1, hb1, hw1⟩ | ⟨e, -, hf⟩
    swap
    · exact hf.elim
    have hb1 : PDb.writer c { d with oldest := r.min } = .ok w1 := hb1
    rw [hw] at hb1; cases hb1
    rcases Db.processAppend_spec he (pageLawful hc hH) hw1 ha (fun _ => Db.Cancel.never) with
      ⟨_, res, w2, k1, k2, k3, k4⟩ | ⟨e, w2, k1, -⟩ | ⟨-, m, k1⟩
    · rw [hpa] at k1; cases k1
      obtain ⟨tr, -, t2, t3⟩ := appendAll_trace (valid := Accepted c.g.pageSize) s1 [req] [.ok p] ⟨k2, trivial⟩
      obtain ⟨x, hx, hxp⟩ : ∃ x ∈ tr ++ [], x.2.1 = .ok p := by
        have hp : Except.ok p ∈ tr.map (·.2.1) := by rw [t2]; simp
        obtain ⟨x, hx, e⟩ := List.mem_map.mp hp
        exact ⟨x, by simpa using hx, e⟩
      have hle := trace_ok_le (t3 .nil) hx hxp
      obtain ⟨_, _, _, _, _, _, _, _, _, _, _, _, _, _, T⟩ := k3
      have hn := T.nextPos
      obtain ⟨s2, k1, -⟩ := (SysOf.crashed hd).runs he hH hrun
      obtain ⟨s3, k2, -, k3⟩ := k1.finish hcom
      refine ⟨s3, k2, ?_⟩
      have := k3 () rfl
      simp only [Abs.of] at hn
      simp only [appendAll] at hle
      omega
    · rw [hpa] at k1; cases k1
    · rw [hpa] at k1; cases k1
  | @later σ σ' p _ hr ih =>
    obtain ⟨h1, s1, h2, h3⟩ := ih
    obtain ⟨s2, h4, h5⟩ := h2.runs he hH hr
    exact ⟨h1.trans hr, s2, h4, by have := h5.1.length_le; omega⟩

/-- C53: a reader opened after an append was answered with `p` sees the events up to `p`,
and so does a reader opened after `p` was announced as the head. -/
theorem C53_read_your_writes {env : Env} (he : EnvOk env) (hc : ConfOk c kw) (hH : ∀ t, Codec.NormalizedTo kw (env.H t)) {d : PDb}
    {s : Spec.Db} (hd : LiveS c hc env.H d s) {σ1 σ : Sys} {p : Nat} (ha : Acked c env (.init d) σ1 p) (h2 : Runs c env σ1 σ)
    {i : Nat} (hi : σ1.rd.length ≤ i) {h : Codec.Header} {d0 : PDb} {pend : List (Nat × Codec.Node)}
    (hl : σ.rd[i]? = some (.live h d0 pend)) : ∃ s0, ShowsAt c env (σ.d.base c) h s0 ∧ p ≤ s0.log.length := by
  obtain ⟨-, s1, k1, hp⟩ := ha.committed he hc hH hd
  obtain ⟨τ, t1, t2, rfl⟩ := looked_since h2 hi hl (h := h) (d0 := d0) ⟨rfl, rfl⟩
  obtain ⟨s0, k2, k3⟩ := k1.runs he hH t1
  exact ⟨s0, reader_shows he hc hH k2 t2 (List.mem_of_getElem? hl), by have := k3.1.length_le; omega⟩

/-! ## Example: a reader opened after an answered append, beside an older one -/

/-- A new database, a reader, a batch with `exReq` committed beside it and answered with 2, and then another reader: the
first sees nothing, the second the two events. -/
example : ∃ (d : PDb) (σ1 σ : Sys) (g h : Codec.Header) (dg d0 : PDb), LiveS exConf exConf_ok exConstEnv.H d Spec.Db.empty ∧
    Runs exConf exConstEnv (.init d) σ1 ∧ Acked exConf exConstEnv (.init d) σ1 2 ∧ Shows exConf exConstEnv σ1.d exAfter ∧
    σ1.rd = [.live g dg []] ∧ ShowsAt exConf exConstEnv (σ1.d.base exConf) g Spec.Db.empty ∧
    Runs exConf exConstEnv σ1 σ ∧ σ.rd = [.live g dg [], .live h d0 []] ∧ ShowsAt exConf exConstEnv (σ.d.base exConf) h exAfter := by
  obtain ⟨d, d', b, wr, r, g, hS, hmin, h1, ha, hB, hab, hres, hrun, hfin, hd', hsh⟩ := exBeside
  have he : EnvOk exConstEnv := ⟨fun l => List.Perm.refl l⟩
  have h2 : Runs exConf exConstEnv ⟨{ d with oldest := r.min }, r, [.live g d []], some (.built b.w)⟩ _ :=
    .single (.settle (io := { exIO with oldest := some 0 }) hrun)
  have hk : Acked exConf exConstEnv (.init d) ⟨d', r, [.live g d []], none⟩ 2 := .batch h1 ha hB hab h2 hfin (.inl (by simp [hres]))
  have h3 := (hk.committed he exConf_ok exConstEnv_width hS).1
  have hd := hd'
  obtain ⟨hp, h, PE, PT, PK, PF, ix, F, L, -⟩ := hd
  have ho : observe d'.m.h0 d'.m.h1 = .ok h := L.header_eq
  let σ1 : Sys := ⟨d', r, [.live g d []], none⟩
  have step : ∀ {r1 r2 : Registry} {ph ph' : Phase}, Runs exConf exConstEnv σ1 ⟨d', r1, [.live g d [], ph], none⟩ →
      RStep exConf d' r1 ph d' r2 ph' → Runs exConf exConstEnv σ1 ⟨d', r2, [.live g d [], ph'], none⟩ := fun h1 h2 =>
    h1.tail (.reader (rd := [.live g d []]) (rd' := []) h2)
  have s0 : Runs exConf exConstEnv σ1 ⟨d', r, [.live g d [], .start], none⟩ := .single (.arrive _)
  have s5 := step (step (step (step (step s0 (.load0 _ _)) (.load1 ho)) (.register _ _ _)) (.reload0 _ _ _)) (.confirm ho rfl)
  refine ⟨d, σ1, _, g, h, d, d', hS, h3, hk, shows he exConf_ok exConstEnv_width hd', rfl, hsh, s5, rfl, ?_⟩
  exact LiveAt.showsAt he L L.sees

end Uma.Props
