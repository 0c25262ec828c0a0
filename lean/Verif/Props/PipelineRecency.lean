import Verif.Props.Recency
import Verif.Props.PipelineReaders

/-!
# Reads beside the pipelined writer see what came before them: C54

For every execution of readers, the pipelined writer, its I/O thread and crashes (`Verif/Page/PipelineReaders.lean`) in which
no reader is opened at the wrong moment (`Careful`, see `C51_snapshot_false`).
-/

namespace Uma.Props
open Uma.Spec Uma.Db Uma.Page Uma.Mvcc

variable {c : Conf} {kw : Nat}

/-- A reader that arrived after `σ0` looked at the headers after `σ0`. -/
theorem plooked_since {env : Env} {guard : PSys → Prop} {σ0 σ : PSys} (hr : PRuns c env guard σ0 σ) {i : Nat} (hi : σ0.rd.length ≤ i)
    {ph : Phase} (hl : σ.rd[i]? = some ph) {h : Codec.Header} {d0 : PDb} (hp : Phase.confirming h d0 ph) :
    ∃ τ, PRuns c env guard σ0 τ ∧ PRuns c env guard τ σ ∧ τ.st.db = d0 := by
  induction hr generalizing ph with
  | refl => rw [List.getElem?_eq_none hi] at hl; cases hl
  | @tail τ σ hr hs ih =>
    have same : (∃ ph, τ.rd[i]? = some ph ∧ Phase.confirming h d0 ph) →
        ∃ τ, PRuns c env guard σ0 τ ∧ PRuns c env guard τ σ ∧ τ.st.db = d0 := by
      rintro ⟨ph, h1, h2⟩
      obtain ⟨τ', k1, k2, k3⟩ := ih h1 h2
      exact ⟨τ', k1, k2.tail hs, k3⟩
    have hs' := hs
    cases hs with
    | arrive =>
      refine same ⟨ph, ?_, hp⟩
      simp only at hl
      rcases Nat.lt_or_ge i τ.rd.length with h1 | h1
      · rwa [List.getElem?_append_left h1] at hl
      · rw [List.getElem?_append_right h1] at hl
        have := List.mem_of_getElem? hl
        simp only [List.mem_singleton] at this
        subst this
        exact hp.elim
    | @reader st r rd rd' ph0 d' r' ph' bld hr' hx =>
      by_cases hne : i = rd.length
      · subst hne
        simp at hl
        subst hl
        have keep : Phase.confirming h d0 ph0 → ∃ τ', PRuns c env guard σ0 τ' ∧
            PRuns c env guard τ' ⟨{ st with db := d' }, r', rd ++ ph' :: rd', bld⟩ ∧ τ'.st.db = d0 :=
          fun h1 => same ⟨ph0, by simp, h1⟩
        cases hr' with
        | load0 => exact hp.elim
        | load1 => exact hp.elim
        | register => exact hp.elim
        | reload0 =>
          obtain ⟨rfl, rfl⟩ := hp
          exact ⟨_, hr, .single hs', rfl⟩
        | confirm => exact keep hp
        | outdated => exact hp.elim
        | retry => exact hp.elim
        | fetch => exact keep hp
        | fill => exact keep hp
        | close => exact hp.elim
      · refine same ⟨ph, ?_, hp⟩
        simp only at hl ⊢
        rcases Nat.lt_or_ge i rd.length with h1 | h1
        · rw [List.getElem?_append_left h1] at hl ⊢
          exact hl
        · rw [List.getElem?_append_right h1] at hl ⊢
          obtain ⟨k, hk⟩ : ∃ k, i - rd.length = k + 1 := ⟨i - rd.length - 1, by omega⟩
          rw [hk] at hl ⊢
          simpa using hl
    | evict => exact same ⟨ph, hl, hp⟩
    | load => exact same ⟨ph, hl, hp⟩
    | build => exact same ⟨ph, hl, hp⟩
    | scribble => exact same ⟨ph, hl, hp⟩
    | land => exact same ⟨ph, hl, hp⟩
    | fail => exact same ⟨ph, hl, hp⟩
    | dispatch => exact same ⟨ph, hl, hp⟩
    | crash => simp [PSys.init] at hl

/-- What an open reader sees: the committed database of the moment it looked at the headers the second time. -/
theorem preader_shows (hg : c.g.pageSize = defaultPageSize) {env : Env} (he : EnvOk env) (hc : ConfOk c kw)
    (hH : ∀ t, Codec.NormalizedTo kw (env.H t)) {σ τ : PSys} {s0 : Spec.Db}
    (hτ : PSysOf c hc env.H τ s0) (hr : PRuns c env Careful τ σ) {h : Codec.Header} {pend : List (Nat × Codec.Node)}
    (hl : Phase.live h τ.st.db pend ∈ σ.rd) : ShowsAt c env (σ.st.db.base c) h s0 := by
  obtain ⟨s, ⟨hp, h1, PE, PT, PK, PF, ix, F, I⟩, -⟩ := hτ.runs hg he hH hr
  obtain ⟨K, -, hrd⟩ := I.stage
  obtain ⟨-, hp0, PE0, PT0, PK0, PF0, ix0, F0, s1, L0, hk, -⟩ := hrd _ hl
  obtain ⟨hp1, h2, PE1, PT1, PK1, PF1, ix1, F1, I1⟩ := hτ
  obtain ⟨e1, e2, e3, e4⟩ := L0.unique I1.live
  subst e1 e2 e3
  refine LiveAt.showsAt he I1.live fun p n hpn => ?_
  have hpn := (e4 _).mp hpn
  have hb := L0.body (mem_ids_of hpn)
  obtain ⟨hr1, hr2⟩ := (hk _ hpn).1
  unfold PDb.base PDb.read
  rw [if_neg (by omega)]
  cases hcp : σ.st.db.cache p with
  | some m => simp only [hr2 m hcp]; rfl
  | none => rw [I.live.width, hr1]; rfl

/-- C54, for `Careful` executions: a reader opened after the moment `σ1` sees all that a new reader would have seen then. -/
theorem C54_real_time_partial (hg : c.g.pageSize = defaultPageSize) {env : Env} (he : EnvOk env) (hc : ConfOk c kw)
    (hH : ∀ t, Codec.NormalizedTo kw (env.H t)) {d : PDb} {s : Spec.Db} (hd : LiveS c hc env.H d s) {st : Pipe} (hst : Pipe.start c d = .ok st)
    {σ1 σ : PSys} (h1 : PRuns c env Careful (.init st) σ1) {s1 : Spec.Db} (hs1 : Shows c env σ1.st.db s1)
    (h2 : PRuns c env Careful σ1 σ) {i : Nat} (hi : σ1.rd.length ≤ i) {h : Codec.Header} {d0 : PDb} {pend : List (Nat × Codec.Node)}
    (hl : σ.rd[i]? = some (.live h d0 pend)) : ∃ s0, ShowsAt c env (σ.st.db.base c) h s0 ∧ Later s1 s0 := by
  obtain ⟨s1', k1, -⟩ := (PSysOf.opened hd hst).runs hg he hH h1
  obtain ⟨τ, t1, t2, rfl⟩ := plooked_since h2 hi hl (h := h) (d0 := d0) ⟨rfl, rfl⟩
  obtain ⟨s0, k2, k3⟩ := k1.runs hg he hH t1
  refine ⟨s0, preader_shows hg he hc hH k2 t2 (List.mem_of_getElem? hl), ?_⟩
  obtain ⟨hp, h1, PE, PT, PK, PF, ix, F, I⟩ := k1
  exact (hs1.later (shows he hc hH ⟨hp, h1, PE, PT, PK, PF, ix, F, I.live, I.safe⟩)).trans k3.later

/-- C54, for `Careful` executions: a reader opened after another one sees all that the other one sees. -/
theorem C54_monotonic_reads_partial (hg : c.g.pageSize = defaultPageSize) {env : Env} (he : EnvOk env) (hc : ConfOk c kw)
    (hH : ∀ t, Codec.NormalizedTo kw (env.H t)) {d : PDb} {s : Spec.Db} (hd : LiveS c hc env.H d s) {st : Pipe} (hst : Pipe.start c d = .ok st)
    {σ1 σ : PSys} (h1 : PRuns c env Careful (.init st) σ1) {g : Codec.Header} {dg : PDb} {pg : List (Nat × Codec.Node)}
    (hg' : .live g dg pg ∈ σ1.rd) {s1 : Spec.Db} (hs1 : ShowsAt c env (σ1.st.db.base c) g s1)
    (h2 : PRuns c env Careful σ1 σ) {i : Nat} (hi : σ1.rd.length ≤ i) {h : Codec.Header} {d0 : PDb} {pend : List (Nat × Codec.Node)}
    (hl : σ.rd[i]? = some (.live h d0 pend)) : ∃ s0, ShowsAt c env (σ.st.db.base c) h s0 ∧ Later s1 s0 := by
  obtain ⟨τ, t1, t2, rfl, -⟩ := plive_since h1 rfl (.inl ⟨pg, hg'⟩)
  obtain ⟨sg, k1, -⟩ := (PSysOf.opened hd hst).runs hg he hH t1
  obtain ⟨s1', k2, k3⟩ := k1.runs hg he hH t2
  obtain ⟨τ', t3, t4, rfl⟩ := plooked_since h2 hi hl (h := h) (d0 := d0) ⟨rfl, rfl⟩
  obtain ⟨s0, k4, k5⟩ := k2.runs hg he hH t3
  exact ⟨s0, preader_shows hg he hc hH k4 t4 (List.mem_of_getElem? hl),
    (hs1.later (preader_shows hg he hc hH k1 t2 hg')).trans (k3.trans k5).later⟩

/-- C54, for `Careful` executions: a reader opened after an append was answered with `p`, or after `p` was announced as the
head, sees the events up to `p`.  This holds across crashes. -/
theorem C54_read_your_writes_partial (hg : c.g.pageSize = defaultPageSize) {env : Env} (he : EnvOk env) (hc : ConfOk c kw)
    (hH : ∀ t, Codec.NormalizedTo kw (env.H t)) {d : PDb} {s : Spec.Db} (hd : LiveS c hc env.H d s) {st : Pipe} (hst : Pipe.start c d = .ok st)
    {σ1 σ : PSys} (h1 : PRuns c env Careful (.init st) σ1) {p : Nat} (hp : (∃ id, (id, .ok p) ∈ σ1.st.answers) ∨ some p ∈ σ1.st.heads)
    (h2 : PRuns c env Careful σ1 σ) {i : Nat} (hi : σ1.rd.length ≤ i) {h : Codec.Header} {d0 : PDb} {pend : List (Nat × Codec.Node)}
    (hl : σ.rd[i]? = some (.live h d0 pend)) : ∃ s0, ShowsAt c env (σ.st.db.base c) h s0 ∧ p ≤ s0.log.length := by
  obtain ⟨s1, k1, -⟩ := (PSysOf.opened hd hst).runs hg he hH h1
  obtain ⟨τ, t1, t2, rfl⟩ := plooked_since h2 hi hl (h := h) (d0 := d0) ⟨rfl, rfl⟩
  obtain ⟨s0, k2, k3⟩ := k1.runs hg he hH t1
  refine ⟨s0, preader_shows hg he hc hH k2 t2 (List.mem_of_getElem? hl), ?_⟩
  obtain ⟨hp1, h1, PE, PT, PK, PF, ix, F, I⟩ := k1
  have hle : p ≤ s1.log.length := by
    rcases hp with ⟨id, hp⟩ | hp
    · exact I.told.1 _ hp p rfl
    · exact I.told.2 p hp
  have := k3.1.length_le
  omega

/-! ## Example -/

/-- A reader opened while the first batch is in flight; the batch lands, is answered with 2, and then another reader is opened:
the first sees nothing, the second the two events. -/
example : ∃ (d : PDb) (st : Pipe) (σ1 σ : PSys) (g h : Codec.Header) (dg d0 : PDb), LiveS exConf exConf_ok exConstEnv.H d Spec.Db.empty ∧
    Pipe.start exConf d = .ok st ∧ PRuns exConf exConstEnv Careful (.init st) σ1 ∧ (1, .ok 2) ∈ σ1.st.answers ∧ some 2 ∈ σ1.st.heads ∧
    Shows exConf exConstEnv σ1.st.db exAfter ∧ σ1.rd = [.live g dg []] ∧ ShowsAt exConf exConstEnv (σ1.st.db.base exConf) g Spec.Db.empty ∧
    PRuns exConf exConstEnv Careful σ1 σ ∧ σ.rd = [.live g dg [], .live h d0 []] ∧
    ShowsAt exConf exConstEnv (σ.st.db.base exConf) h exAfter := by
  have he : EnvOk exConstEnv := ⟨fun l => List.Perm.refl l⟩
  obtain ⟨d, d0, st0, st1, st2, f, r, g, hS, h0, -, -, h2, ha, hh, hd, hb, hshow⟩ := exLanded
  have hd := hd
  obtain ⟨hp, h, PE, PT, PK, PF, ix, F, L, -⟩ := hd
  have ho : observe st2.db.m.h0 st2.db.m.h1 = .ok h := L.header_eq
  let σ1 : PSys := ⟨st2, r, [.live g d0 []], none⟩
  have step : ∀ {r1 r2 : Registry} {ph ph' : Phase}, PRuns exConf exConstEnv Careful σ1 ⟨st2, r1, [.live g d0 [], ph], none⟩ →
      RStep exConf st2.db r1 ph st2.db r2 ph' → PRuns exConf exConstEnv Careful σ1 ⟨st2, r2, [.live g d0 [], ph'], none⟩ := fun h1 h2 =>
    h1.tail (.reader (rd := [.live g d0 []]) (rd' := []) h2 (by rintro - ⟨-, b, hb⟩; cases hb))
  have s0 : PRuns exConf exConstEnv Careful σ1 ⟨st2, r, [.live g d0 [], .start], none⟩ := .single (.arrive _)
  have s5 := step (step (step (step (step s0 (.load0 _ _)) (.load1 ho)) (.register _ _ _)) (.reload0 _ _ _)) (.confirm ho rfl)
  exact ⟨d, st0, σ1, _, g, h, d0, st2.db, hS, h0, h2, ha, hh, hb, rfl, hshow, s5, rfl, LiveAt.showsAt he L L.sees⟩

end Uma.Props
