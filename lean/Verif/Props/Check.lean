import Verif.Tools.Check
import Verif.Props.DamageWrite

/-!
# C57: the integrity checker
-/

namespace Uma.Props
open Uma.Codec Uma.Mvcc Uma.Page Uma.Spec Uma.Db Uma.Tools

variable {c : Conf} {kw : Nat} {hc : ConfOk c kw} {H : String → Db.TagHash} {d : PDb} {hp : HPage} {h : Header}
  {PE PT PK PF : Multiset (Nat × Node)} {ix : Nat → List Nat} {F : Multiset (Nat × Nat)} {s : Spec.Db} {f f' : File}

/-! ## Opening -/

theorem readPage_inside {g : Pager} {kw p : Nat} {f : File} {n : Node} (hps : 0 < g.pageSize) (h : readPage g kw p f = .ok n) :
    p * g.pageSize + g.pageSize ≤ f.len := by
  unfold readPage readPageBytes at h
  simp only at h
  split at h
  · next hx =>
    split at hx
    · cases h
    · cases hx
  · next hx =>
    split at hx
    · cases hx
    · next hl => simp [File.readAt] at hl; omega

/-- The header used after opening a file whose current header is `h`; the other slot alone may be rewritten. -/
theorem opened_current (hc : ConfOk c kw) {i : Nat} (hi : i = 0 ∨ i = 1) (hz : f.Zeroed)
    (hh : ∀ kw, readPage c.g kw i f = .ok (.header h)) (ho : OtherOk c.g f (1 - i) h) {kw0 : Nat} (hk0 : kw0 ≤ 16) {m : Opened}
    {f1 : File} (he : openExisting c.g kw0 c.zeroFill f = (.ok m, f1)) :
    ∃ j, Current c.g f1 m j h ∧ f.len ≤ f1.len ∧ ∀ x, 2 * c.g.pageSize ≤ x → f1.byte x = f.byte x := by
  have hps : 71 ≤ c.g.pageSize ∧ c.g.pageSize ≤ 2 ^ 32 := ⟨by have := hc.ps; omega, hc.big⟩
  rcases ho with hu | ⟨h', hr', hlt⟩
  · obtain ⟨e, hbad⟩ := hu kw0
    obtain ⟨f2, h1, -, h3, h4, -, -, h7⟩ := C22_repair hps hk0 c.zeroFill f hz (good := i) (bad := 1 - i) (by omega) (hh kw0) hbad
    rw [he] at h1 h4
    simp only at h1
    subst h1
    refine ⟨i, h4 m rfl, h7, fun x hx => h3 x (.inr ?_)⟩
    rcases hi with rfl | rfl
    · simp; omega
    · simp; omega
  · rcases hi with rfl | rfl
    · obtain ⟨h1, h2, -⟩ := C22_newest c.g kw0 c.zeroFill f hz (hh kw0) (hr' kw0)
      rw [he] at h1 h2
      simp only at h1
      subst h1
      have := h2 m rfl
      rw [if_neg (by rcases hlt with hlt | rfl <;> omega)] at this
      exact ⟨0, this, Nat.le_refl _, fun _ _ => rfl⟩
    · obtain ⟨h1, h2, -⟩ := C22_newest c.g kw0 c.zeroFill f hz (hr' kw0) (hh kw0)
      rw [he] at h1 h2
      simp only at h1
      subst h1
      have := h2 m rfl
      split at this
      · exact ⟨1, this, Nat.le_refl _, fun _ _ => rfl⟩
      · rcases hlt with hlt | rfl
        · omega
        · exact ⟨0, this, Nat.le_refl _, fun _ _ => rfl⟩

/-! ## The events -/

theorem read_all_forward (log : Log) (k n : Nat) :
    Spec.read log ⟨[]⟩ (some (k + 1)) false (some n) = ((sequenced log).drop k).take n := by
  have hf : (sequenced log).filter (fun e => decide (InRange (some (k + 1)) false e.position) && decide (Matches ⟨[]⟩ e.event)) =
      (sequenced log).drop k := by
    have : ∀ (l : Log) (n k : Nat), ((numberFrom n l).map toSeq).filter
        (fun e => decide (InRange (some (n + k)) false e.position) && decide (Matches ⟨[]⟩ e.event)) =
        ((numberFrom n l).map toSeq).drop k := by
      intro l
      induction l with
      | nil => intro n k; simp [numberFrom]
      | cons r l ih =>
        intro n k
        cases k with
        | zero =>
          have hrest := ih (n + 1) 0
          simp only [numberFrom, List.map_cons, Nat.add_zero, List.drop_zero] at hrest ⊢
          rw [List.filter_cons_of_pos (by simp [toSeq, InRange, Matches])]
          congr 1
          rw [List.filter_eq_self]
          intro e he
          rw [← hrest] at he
          have := (List.mem_filter.mp he).2
          simp only [InRange, Bool.and_eq_true, decide_eq_true_eq, if_neg Bool.false_ne_true] at this ⊢
          exact ⟨Nat.le_of_succ_le this.1, this.2⟩
        | succ k =>
          have hrest := ih (n + 1) k
          simp only [numberFrom, List.map_cons, List.drop_succ_cons] at hrest ⊢
          rw [List.filter_cons_of_neg (by simp [toSeq, InRange]), ← hrest]
          congr 1
          funext e
          rw [show n + (k + 1) = n + 1 + k from by omega]
    have := this log 1 k
    rwa [Nat.add_comm 1 k] at this
  simp only [Spec.read, hf, applyLimit]
  rfl

theorem sequenced_length (log : Log) : (sequenced log).length = log.length := by
  have := congrArg List.length (C07_positions log).1
  simpa using this

theorem sequenced_getElem (log : Log) (i : Nat) (hi : i < (sequenced log).length) : ((sequenced log)[i]).position = i + 1 := by
  have h1 : ((sequenced log).map (·.position))[i]? = (List.range' 1 log.length)[i]? := by rw [(C07_positions log).1]
  rw [List.getElem?_map, List.getElem?_eq_getElem hi, List.getElem?_range' (by rw [sequenced_length] at hi; exact hi)] at h1
  simpa [Nat.add_comm] using h1

theorem scanEvents_spec {env : Env} (he : EnvOk env) {sn : Snap} {log : Log} (hr : Refines env.H sn log) (fuel : Nat) :
    ∀ k ≤ log.length, log.length - k < fuel → scanEvents env sn fuel (k + 1) k k = (log.length, log.length, false) := by
  induction fuel with
  | zero => intro k _ h; omega
  | succ fuel ih =>
    intro k hk hf
    unfold scanEvents
    have hread : readConditional env.H env.ord sn ⟨[]⟩ (some (k + 1)) false (some 1024) false Cancel.never =
        .ok (((sequenced log).drop k).take 1024) := by
      rcases readConditional_correct env.H env.ord he.ord sn log hr ⟨[]⟩ (some (k + 1)) false (some 1024) false Cancel.never
        with h | ⟨_, j, hj⟩
      · rw [h, read_all_forward]
      · cases hj
    rw [hread]
    simp only
    have hlen : (((sequenced log).drop k).take 1024).length = min 1024 (log.length - k) := by simp [sequenced_length]
    by_cases hend : k = log.length
    · have h0 : ((sequenced log).drop k).take 1024 = [] := List.length_eq_zero_iff.mp (by rw [hlen]; omega)
      rw [h0]
      simp [hend]
    · have hne : ((sequenced log).drop k).take 1024 ≠ [] := by
        intro h0; rw [h0] at hlen; simp at hlen; omega
      have hlast : (((sequenced log).drop k).take 1024).getLast? =
          some ((sequenced log)[k + min 1024 (log.length - k) - 1]'(by rw [sequenced_length]; omega)) := by
        rw [List.getLast?_eq_getElem?, hlen, List.getElem?_take_of_lt (by omega), List.getElem?_drop,
          List.getElem?_eq_getElem (by rw [sequenced_length]; omega)]
        congr 2; omega
      rw [hlast]
      simp only [sequenced_getElem, hlen]
      have e1 : k + min 1024 (log.length - k) - 1 + 1 = k + min 1024 (log.length - k) := by omega
      rw [e1]
      exact ih _ (by omega) (by omega)

theorem lastByTree_spec {env : Env} (he : EnvOk env) {sn : Snap} {log : Log} (hr : Refines env.H sn log) :
    lastByTree env sn = .ok (Spec.head log) := by
  unfold lastByTree
  have hread : readConditional env.H env.ord sn ⟨[]⟩ none true (some 1) false Cancel.never =
      .ok ((sequenced log).reverse.take 1) := by
    rcases readConditional_correct env.H env.ord he.ord sn log hr ⟨[]⟩ none true (some 1) false Cancel.never
      with h | ⟨_, j, hj⟩
    · rw [h]
      simp only [Spec.read, applyLimit, if_true]
      rw [List.filter_eq_self.mpr (by intro e _; simp [Matches, show InRange none true e.position from trivial])]
    · cases hj
  rw [hread]
  simp only [bind, Except.bind]
  congr 1
  by_cases hl : log = []
  · subst hl; rfl
  · have hne : sequenced log ≠ [] := by
      intro h0; have := sequenced_length log; rw [h0] at this; exact hl (List.length_eq_zero_iff.mp this.symm)
    have h0 : 0 < log.length := List.length_pos_iff.mpr hl
    have : ((sequenced log).reverse.take 1).getLast? = some ((sequenced log)[log.length - 1]'(by rw [sequenced_length]; omega)) := by
      rw [List.getLast?_eq_getElem?]
      have hl1 : ((sequenced log).reverse.take 1).length = 1 := by simp [sequenced_length]; omega
      rw [hl1, List.getElem?_take_of_lt (by omega), List.getElem?_reverse (by rw [sequenced_length]; omega),
        List.getElem?_eq_getElem (by rw [sequenced_length]; omega)]
      simp [sequenced_length]
    rw [this]
    simp only [Option.map_some, sequenced_getElem, Spec.head, if_neg hl]
    congr 1; omega

/-- The checks on the events fail exactly for an empty log. -/
theorem eventErrors_spec (log : Log) :
    eventErrors (log.length + 1) log.length false (.ok (Spec.head log)) = if log = [] then [3] else [] := by
  by_cases hl : log = []
  · subst hl; rfl
  · simp [eventErrors, Spec.head, hl]

/-! ## The verdict -/

theorem verdict_iff {env : Env} {kw0 : Nat} {f : File} : verdict c env kw0 f = .ok () ↔
    ∃ d' h, reopen c kw0 f = .ok d' ∧ d'.header = .ok h ∧ (report c env d' h).pages = [] ∧ (report c env d' h).events = [] := by
  unfold verdict check reopen
  rcases ho : openExisting c.g kw0 c.zeroFill f with ⟨e | m, f1⟩
  · simp
  · simp only [bind, Except.bind]
    cases hl : latestPage m.h0 m.h1 with
    | error e => simp
    | ok p =>
      simp only [Except.ok.injEq]
      have hh : ∀ d' : PDb, d' = .fresh f1 m f [1 - p.id] none → d'.header = asHeader p.node := by
        intro d' hd'
        subst hd'
        unfold PDb.header
        rw [show (PDb.fresh f1 m f [1 - p.id] none).m = m from rfl, hl]
        rfl
      cases ha : asHeader p.node with
      | error e =>
        simp only [reduceCtorEq, false_iff]
        rintro ⟨d', h, h1, h2, -⟩
        rw [hh d' h1.symm, ha] at h2
        cases h2
      | ok h =>
        simp only
        constructor
        · intro hv
          split at hv
          · next hp =>
            simp only [Report.passes, Bool.and_eq_true, List.isEmpty_iff] at hp
            exact ⟨_, h, rfl, by rw [hh _ rfl, ha], hp.1, hp.2⟩
          · cases hv
        · rintro ⟨d', h', h1, h2, h3, h4⟩
          subst h1
          rw [hh _ rfl, ha] at h2
          cases h2
          rw [if_pos]
          simp only [Report.passes, Bool.and_eq_true, List.isEmpty_iff]
          exact ⟨h3, h4⟩

theorem failed_iff {α : Type} {x : Except Err α} : failed x = false ↔ ∃ a, x = .ok a := by
  cases x <;> simp [failed]

theorem pageErrors_nil {next : Nat} : pageErrors c d next = [] ↔ ∀ p, 2 ≤ p → p < next → ∃ n, d.read c p = .ok n := by
  unfold pageErrors
  simp only [List.filter_eq_nil_iff, List.mem_range'_1, Bool.not_eq_true, failed_iff]
  constructor
  · intro h p h1 h2; exact h p ⟨h1, by omega⟩
  · intro h p hp; exact h p hp.1 (by omega)

/-- The slot of page `p` is in the file and not all zeros. -/
def Filled (c : Conf) (f : File) (p : Nat) : Prop :=
  p * c.g.pageSize + c.g.pageSize ≤ f.len ∧ ∃ i, p * c.g.pageSize ≤ i ∧ i < p * c.g.pageSize + c.g.pageSize ∧ f.byte i ≠ 0

theorem filled_iff {p : Nat} : Filled c f p ↔ p * c.g.pageSize + c.g.pageSize ≤ f.len ∧
    ¬ (f.readAt (p * c.g.pageSize) c.g.pageSize).all (· == 0) = true := by
  unfold Filled
  refine and_congr_right fun hl => ?_
  have hm : min c.g.pageSize (f.len - p * c.g.pageSize) = c.g.pageSize := by omega
  simp only [File.readAt, hm, List.all_map, List.all_eq_true, List.mem_range, Function.comp, beq_iff_eq, not_forall]
  constructor
  · rintro ⟨i, h1, h2, h3⟩
    refine ⟨i - p * c.g.pageSize, by omega, ?_⟩
    rw [show p * c.g.pageSize + (i - p * c.g.pageSize) = i from by omega]
    exact h3
  · rintro ⟨i, h1, h2⟩
    exact ⟨_, by omega, by omega, h2⟩

theorem readPage_at {p kw' : Nat} (hl : p * c.g.pageSize + c.g.pageSize ≤ f.len) :
    readPage c.g kw' p f = deserializePage kw' (f.readAt (p * c.g.pageSize) c.g.pageSize) := by
  unfold readPage readPageBytes
  simp only
  rw [if_neg (by simp [File.readAt]; omega)]

theorem beyondErrors_nil (hps : 0 < c.g.pageSize) : ∀ (fuel p : Nat), d.file.len < p + fuel →
    (beyondErrors c d fuel p = [] ↔
      ∀ q, p ≤ q → (∀ r, p ≤ r → r ≤ q → Filled c d.file r) → ∃ n, readPage c.g d.m.kw q d.file = .ok n) := by
  intro fuel
  induction fuel with
  | zero =>
    intro p hp
    simp only [beyondErrors, true_iff]
    intro q hq hr
    have h1 := (hr p (Nat.le_refl _) hq).1
    have h2 : p * 1 ≤ p * c.g.pageSize := Nat.mul_le_mul_left _ hps
    omega
  | succ fuel ih =>
    intro p hp
    unfold beyondErrors
    simp only
    split
    · next hout =>
      simp only [true_iff]
      intro q hq hr
      have h1 := (hr p (Nat.le_refl _) hq).1
      omega
    · next hin =>
      split
      · next hzero =>
        simp only [true_iff]
        intro q hq hr
        exact absurd hzero (filled_iff.mp (hr p (Nat.le_refl _) hq)).2
      · next hzero =>
        have hfill : Filled c d.file p := filled_iff.mpr ⟨by omega, hzero⟩
        rw [List.append_eq_nil_iff, ih (p + 1) (by omega)]
        have hd : ((if failed (deserializePage d.m.kw (d.file.readAt (p * c.g.pageSize) c.g.pageSize)) = true then [p] else []) = ([] : List Nat)) ↔
            ∃ n, readPage c.g d.m.kw p d.file = .ok n := by
          rw [readPage_at (by omega), ← failed_iff]
          split
          · next h => simp [h]
          · next h => simp [h]
        rw [hd]
        constructor
        · rintro ⟨h1, h2⟩ q hq hr
          by_cases hqp : q = p
          · subst hqp; exact h1
          · exact h2 q (by omega) fun r hr1 hr2 => hr r (by omega) hr2
        · intro h
          refine ⟨h p (Nat.le_refl _) fun r h1 h2 => ?_, fun q hq hr => h q (by omega) fun r h1 h2 => ?_⟩
          · obtain rfl : r = p := by omega
            exact hfill
          · by_cases hrp : r = p
            · subst hrp; exact hfill
            · exact hr r (by omega) h2

/-! ## C57 -/

/-- `f'` is the file `f` after damage: pages that could be read are the same or cannot be read any more; the header slots
read as before. -/
structure Spoiled (c : Conf) (kw : Nat) (f' f : File) : Prop where
  len : f'.len = f.len
  zeroed : f'.Zeroed
  heads : ∀ k, k = 0 ∨ k = 1 → ∀ kw, readPage c.g kw k f' = readPage c.g kw k f
  pages : ∀ p n, 2 ≤ p → readPage c.g kw p f = .ok n →
    readPage c.g kw p f' = .ok n ∨ ∃ e, readPage c.g kw p f' = .error e

theorem Spoiled.refl (hz : f.Zeroed) : Spoiled c kw f f := ⟨rfl, hz, fun _ _ _ => rfl, fun _ _ _ h => .inl h⟩

theorem reopen_inv {kw0 : Nat} {d' : PDb} (hr : reopen c kw0 f = .ok d') :
    ∃ m f1 p, openExisting c.g kw0 c.zeroFill f = (.ok m, f1) ∧ latestPage m.h0 m.h1 = .ok p ∧ d' = .fresh f1 m f [1 - p.id] none := by
  unfold reopen at hr
  rcases ho : openExisting c.g kw0 c.zeroFill f with ⟨e | m, f1⟩
  · rw [ho] at hr; cases hr
  · rw [ho] at hr
    simp only [bind, Except.bind] at hr
    cases hl : latestPage m.h0 m.h1 with
    | error e => rw [hl] at hr; cases hr
    | ok p => rw [hl] at hr; cases hr; exact ⟨m, f1, p, rfl, hl, rfl⟩

/-- What is opened after damage. -/
theorem reopen_spoiled (hc : ConfOk c kw) {i : Nat} {P : Multiset (Nat × Node)} (I : Image c.g kw f i h P) (hs : Spoiled c kw f' f)
    {kw0 : Nat} (hk0 : kw0 ≤ 16) {d' : PDb} (hr : reopen c kw0 f' = .ok d') :
    d'.header = .ok h ∧ d'.m.kw = kw ∧ (∀ p, d'.cache p = none) ∧
      (∀ p, 2 ≤ p → p * c.g.pageSize + c.g.pageSize ≤ f.len → d'.read c p = readPage c.g kw p f') ∧
      ∀ x, 2 * c.g.pageSize ≤ x → d'.file.byte x = f'.byte x := by
  have hi := I.slot
  obtain ⟨m, f1, p, he, hl, rfl⟩ := reopen_inv hr
  obtain ⟨j, hcur, hlen, hb⟩ := opened_current hc hi hs.zeroed (fun k => by rw [hs.heads i hi]; exact I.head k)
    (I.other.congr fun k => hs.heads (1 - i) (by omega) k) hk0 he
  have hkw : m.kw = kw := by
    have h1 := hcur.width
    have h2 := I.schema
    split at h1 <;> omega
  refine ⟨?_, hkw, fun _ => rfl, fun p hp hpl => ?_, hb⟩
  · unfold PDb.header
    show (do let p ← latestPage m.h0 m.h1; asHeader p.node) = _
    rw [hcur.pinned]; rfl
  · unfold PDb.read
    rw [if_neg (by omega)]
    show readPage c.g m.kw p f1 = _
    rw [hkw]
    refine readPage_same (by rw [hs.len]; exact hpl) hlen (fun k hk => hb _ ?_) kw
    have : 2 * c.g.pageSize ≤ p * c.g.pageSize := Nat.mul_le_mul_right _ hp
    omega

/-- If the pages below the limit can all be read, none of the trees is damaged. -/
theorem certified (L : LiveAt c hc H d hp h PE PT PK PF ix F s) {i : Nat} (I : Image c.g kw f i h (PF + (PE + PT + PK)))
    (hs : Spoiled c kw f' f) {kw0 : Nat} (hk0 : kw0 ≤ 16) {d' : PDb} (hr : reopen c kw0 f' = .ok d')
    (hp : pageErrors c d' h.nextPage = []) : Image c.g kw f' i h (PF + (PE + PT + PK)) := by
  have hps : 0 < c.g.pageSize := by have := hc.ps; omega
  obtain ⟨-, -, -, hread, -⟩ := reopen_spoiled hc I hs hk0 hr
  refine ⟨I.slot, I.schema, hs.zeroed, fun k => by rw [hs.heads i I.slot]; exact I.head k,
    I.other.congr fun k => hs.heads (1 - i) (by have := I.slot; omega) k, fun p n hpn => ?_, by rw [hs.len]; exact I.len⟩
  have hb := L.body (mem_ids_of hpn)
  have hf := I.pages p n hpn
  rcases hs.pages p n hb.1 hf with h1 | ⟨e, h1⟩
  · exact h1
  · obtain ⟨n', hn'⟩ := pageErrors_nil.mp hp p hb.1 hb.2
    rw [hread p hb.1 (readPage_inside hps hf), h1] at hn'
    cases hn'

/-- C57: when the checker passes a file, nothing recorded in it is damaged.  The file is one the database may leave behind
(also by a crash), with any damage that makes pages unreadable. -/
theorem C57_certifies {env : Env} (hc : ConfOk c kw) (hd : Live c hc env.H d s) (hdb : d.doubt = false) (hf : Crash c d f)
    (hs : Spoiled c kw f' f) {kw0 : Nat} (hk0 : kw0 ≤ 16) (hv : verdict c env kw0 f' = .ok ()) :
    ∃ d', reopen c kw0 f' = .ok d' ∧ LiveS c hc env.H d' s ∧ d'.doubt = false := by
  obtain ⟨hp, h, PE, PT, PK, PF, ix, F, L, S⟩ := hd
  have I : Image c.g kw f hp.id h (PF + (PE + PT + PK)) := by
    refine Survives.image hf L.slot S.schema S.len S.head S.pages S.apart ?_
    obtain ⟨h1, h2⟩ := S.other hdb
    simp [h1, h2]
  obtain ⟨d', h', h1, h2, h3, -⟩ := verdict_iff.mp hv
  have hh := (reopen_spoiled hc I hs hk0 h1).1
  rw [h2] at hh
  cases hh
  have h3 : headerGaps c d' ++ pageErrors c d' h.nextPage ++ beyondErrors c d' (d'.file.len + 1) h.nextPage = [] := h3
  simp only [List.append_eq_nil_iff] at h3
  obtain ⟨d'', i', k1, k2, k3, k4, k5⟩ := recover L (certified L I hs hk0 h1 h3.1.2) hk0
  exact ⟨d'', k1, ⟨_, _, _, _, _, _, _, _, k2, k3, k5⟩, k4⟩

/-- C57: so all that was committed is read back, by tag too. -/
theorem C57_all_read {env : Env} (he : EnvOk env) (hc : ConfOk c kw) (hH : ∀ t, Codec.NormalizedTo kw (env.H t))
    (hd : Live c hc env.H d s) (hdb : d.doubt = false) (hf : Crash c d f) (hs : Spoiled c kw f' f) {kw0 : Nat} (hk0 : kw0 ≤ 16)
    (hv : verdict c env kw0 f' = .ok ()) : ∃ d', reopen c kw0 f' = .ok d' ∧ Shows c env d' s := by
  obtain ⟨d', h1, h2, -⟩ := C57_certifies hc hd hdb hf hs hk0 hv
  exact ⟨d', h1, shows he hc hH h2.live⟩

/-- C57: the verdict on a file.  It passes exactly if there are events, every page below the limit of the header can be
read, and every page after those up to the first of zeros. -/
theorem C57_verdict {env : Env} (he : EnvOk env) (hc : ConfOk c kw) (hH : ∀ t, Codec.NormalizedTo kw (env.H t))
    (hd : Live c hc env.H d s) (hdb : d.doubt = false) (hf : Crash c d f) (hs : Spoiled c kw f' f) {kw0 : Nat} (hk0 : kw0 ≤ 16) :
    verdict c env kw0 f' = .ok () ↔ s.log ≠ [] ∧ ∃ d' h', reopen c kw0 f' = .ok d' ∧ d'.header = .ok h' ∧
      (∀ p, 2 ≤ p → p < h'.nextPage → ∃ n, d'.read c p = .ok n) ∧
      ∀ q, h'.nextPage ≤ q → (∀ r, h'.nextPage ≤ r → r ≤ q → Filled c d'.file r) → ∃ n, d'.read c q = .ok n := by
  have hps : 0 < c.g.pageSize := by have := hc.ps; omega
  obtain ⟨hp, h, PE, PT, PK, PF, ix, F, L, S⟩ := hd
  have I : Image c.g kw f hp.id h (PF + (PE + PT + PK)) := by
    refine Survives.image hf L.slot S.schema S.len S.head S.pages S.apart ?_
    obtain ⟨h1, h2⟩ := S.other hdb
    simp [h1, h2]
  have hlim := L.limit
  -- what opening gives
  have main : ∀ {d' : PDb}, reopen c kw0 f' = .ok d' → d'.header = .ok h ∧
      (pageErrors c d' h.nextPage = [] → ((report c env d' h).events = [] ↔ s.log ≠ [])) ∧
      ((report c env d' h).pages = [] ↔ pageErrors c d' h.nextPage = [] ∧
        ∀ q, h.nextPage ≤ q → (∀ r, h.nextPage ≤ r → r ≤ q → Filled c d'.file r) → ∃ n, d'.read c q = .ok n) := by
    intro d' hr
    obtain ⟨k1, k2, k3, -⟩ := reopen_spoiled hc I hs hk0 hr
    refine ⟨k1, fun hpe => ?_, ?_⟩
    · obtain ⟨d'', i', j1, j2, j3, -, -⟩ := recover L (certified L I hs hk0 hr hpe) hk0
      rw [hr] at j1
      cases j1
      have hlive : Live c hc env.H d' s := ⟨_, _, _, _, _, _, _, _, j2, j3⟩
      have hsn : Refines env.H (snapOf c (d'.base c) (turns c h.nextPosition h.nextPage) h.eventsRoot h.tagsRoot) s.log := by
        have := (pageLawful hc hH).snapR hlive
        rw [show (pageBackend c).snapR d' = d'.snap c from rfl] at this
        unfold PDb.snap at this
        rw [k1] at this
        exact this
      show eventErrors h.nextPosition (scanEvents env _ (h.nextPosition + 1) 1 0 0).1 (scanEvents env _ (h.nextPosition + 1) 1 0 0).2.2
        (lastByTree env _) = [] ↔ _
      rw [scanEvents_spec he hsn _ 0 (by omega) (by rw [L.next]; omega), lastByTree_spec he hsn, L.next, eventErrors_spec]
      split
      · next hl => simp [hl]
      · next hl => simp [hl]
    · show headerGaps c d' ++ pageErrors c d' h.nextPage ++ beyondErrors c d' (d'.file.len + 1) h.nextPage = [] ↔ _
      have hgaps : headerGaps c d' = [] := by
        have hl : 2 * c.g.pageSize ≤ d'.file.len := by
          obtain ⟨m, f1, p, ho, -, rfl⟩ := reopen_inv hr
          have hi := I.slot
          obtain ⟨j, -, hlen, -⟩ := opened_current hc hi hs.zeroed (fun k => by rw [hs.heads _ hi]; exact I.head k)
            (I.other.congr fun k => hs.heads (1 - hp.id) (by omega) k) hk0 ho
          have := I.len
          rw [← hs.len] at this
          exact Nat.le_trans this hlen
        unfold headerGaps
        simp only [List.filter_eq_nil_iff, Bool.not_eq_true, failed_iff, List.mem_cons, List.not_mem_nil, or_false]
        rintro p (rfl | rfl)
        · exact ⟨_, by unfold readPageBytes; simp only; rw [if_neg (by simp [File.readAt]; omega)]⟩
        · exact ⟨_, by unfold readPageBytes; simp only; rw [if_neg (by simp [File.readAt]; omega)]⟩
      rw [hgaps, List.nil_append, List.append_eq_nil_iff, beyondErrors_nil hps _ _ (by omega)]
      refine and_congr_right fun _ => forall_congr' fun q => ?_
      refine forall_congr' fun hq => forall_congr' fun _ => ?_
      unfold PDb.read
      rw [if_neg (by omega), k3]
  rw [verdict_iff]
  constructor
  · rintro ⟨d', h', h1, h2, h3, h4⟩
    obtain ⟨m1, m2, m3⟩ := main h1
    rw [h2] at m1
    cases m1
    obtain ⟨h5, h6⟩ := m3.mp h3
    exact ⟨(m2 h5).mp h4, d', _, h1, h2, pageErrors_nil.mp h5, h6⟩
  · rintro ⟨hl, d', h', h1, h2, h3, h4⟩
    obtain ⟨m1, m2, m3⟩ := main h1
    rw [h2] at m1
    cases m1
    have h5 := pageErrors_nil.mpr h3
    exact ⟨d', _, h1, h2, m3.mpr ⟨h5, h4⟩, (m2 h5).mpr hl⟩

/-- Opening repairs an unreadable header, so Stage 1 never has anything to report. -/
theorem C57_headers (hc : ConfOk c kw) (env : Env) {kw0 : Nat} (hk0 : kw0 ≤ 16) (hz : f.Zeroed) {r : Report}
    (hr : (check c env kw0 f).1 = .ok r) {i : Nat} (hi : i = 0 ∨ i = 1) {a : Header} (h0 : readPage c.g kw0 i f = .ok (.header a))
    (h1 : (∃ b, readPage c.g kw0 (1 - i) f = .ok (.header b)) ∨ ∃ e, readPage c.g kw0 (1 - i) f = .error e) : r.headers = [] := by
  have hps : 71 ≤ c.g.pageSize ∧ c.g.pageSize ≤ 2 ^ 32 := ⟨by have := hc.ps; omega, hc.big⟩
  have both : ∀ k, k = 0 ∨ k = 1 → ∀ kw, ∃ n, readPage c.g kw k (openExisting c.g kw0 c.zeroFill f).2 = .ok n := by
    rcases h1 with ⟨b, h1⟩ | ⟨e, h1⟩
    · have hf : (openExisting c.g kw0 c.zeroFill f).2 = f := by
        rcases hi with rfl | rfl
        · exact (C22_newest c.g kw0 c.zeroFill f hz h0 h1).1
        · exact (C22_newest c.g kw0 c.zeroFill f hz h1 h0).1
      rw [hf]
      intro k hk kw
      by_cases hki : k = i
      · subst hki; exact ⟨_, readPage_header_width h0 kw⟩
      · obtain rfl : k = 1 - i := by omega
        exact ⟨_, readPage_header_width h1 kw⟩
    · obtain ⟨f2, k1, k2, -⟩ := C22_repair hps hk0 c.zeroFill f hz (good := i) (bad := 1 - i) (by omega) h0 h1
      rw [k1]
      intro k hk kw
      by_cases hki : k = i
      · subst hki; exact ⟨_, (k2 kw).1⟩
      · obtain rfl : k = 1 - i := by omega
        exact ⟨_, (k2 kw).2⟩
  unfold check at hr
  rcases ho : openExisting c.g kw0 c.zeroFill f with ⟨e | m, f1⟩
  · rw [ho] at hr; cases hr
  rw [ho] at hr both
  simp only [bind, Except.bind] at hr
  split at hr
  · cases hr
  split at hr
  · cases hr
  cases hr
  simp only [report, headerErrors, List.filter_eq_nil_iff, List.mem_cons, List.not_mem_nil, or_false]
  intro k hk
  obtain ⟨n, hn⟩ := both k hk m.kw
  unfold readPage at hn
  show ¬ (match readPageBytes c.g k f1 with | .ok b => failed (deserializePage m.kw b) | .error _ => false) = true
  split at hn
  · cases hn
  · next hb => simp only [hb, hn, failed]; simp

/-- C57: what is counted in a file that passes. -/
theorem C57_counts {env : Env} (he : EnvOk env) (hc : ConfOk c kw) (hH : ∀ t, Codec.NormalizedTo kw (env.H t))
    (hd : Live c hc env.H d s) (hdb : d.doubt = false) (hf : Crash c d f) (hs : Spoiled c kw f' f) {kw0 : Nat} (hk0 : kw0 ≤ 16)
    {r : Report} (hr : (check c env kw0 f').1 = .ok r) (hv : verdict c env kw0 f' = .ok ()) :
    r.total = s.log.length ∧ r.last = s.log.length := by
  obtain ⟨d', h1, h2, -⟩ := C57_certifies hc hd hdb hf hs hk0 hv
  obtain ⟨hp, h, PE, PT, PK, PF, ix, F, L, S, -⟩ := id h2
  obtain ⟨m, f1, p, ho, hl, rfl⟩ := reopen_inv h1
  have hp' : p = hp := by have := L.latest; rw [show (PDb.fresh f1 m f' [1 - p.id] none).m = m from rfl, hl] at this; exact Except.ok.inj this
  subst hp'
  unfold check at hr
  simp only [ho, hl, bind, Except.bind, L.node, asHeader] at hr
  cases hr
  have hsn : Refines env.H (snapOf c ((PDb.fresh f1 m f' [1 - p.id] none).base c) (turns c h.nextPosition h.nextPage) h.eventsRoot h.tagsRoot)
      s.log := by
    have := (pageLawful hc hH).snapR h2.live
    rw [show (pageBackend c).snapR (PDb.fresh f1 m f' [1 - p.id] none) = (PDb.fresh f1 m f' [1 - p.id] none).snap c from rfl] at this
    unfold PDb.snap at this
    rw [L.header_eq] at this
    exact this
  simp only [report]
  rw [scanEvents_spec he hsn _ 0 (by omega) (by rw [L.next]; omega)]
  exact ⟨rfl, rfl⟩

/-! ## Files that pass -/

/-- Every page the header counts as allocated can be read from the file, and what comes after them is zero. -/
def Complete (c : Conf) (d : PDb) : Prop :=
  ∃ h, d.header = .ok h ∧ (∀ p, 2 ≤ p → p < h.nextPage → ∃ n, readPage c.g d.m.kw p d.file = .ok n) ∧
    ∀ i, h.nextPage * c.g.pageSize ≤ i → d.file.byte i = 0

theorem crash_self (S : SafeAt c kw d hp h (PF + (PE + PT + PK))) : Crash c d d.file :=
  ⟨S.touched, fun _ _ => .inr ⟨d.file, by simp, fun _ => rfl⟩⟩

/-- C57: a complete file with events passes. -/
theorem C57_passes {env : Env} (he : EnvOk env) (hc : ConfOk c kw) (hH : ∀ t, Codec.NormalizedTo kw (env.H t))
    (hd : Live c hc env.H d s) (hdb : d.doubt = false) (hcp : Complete c d) (hl : s.log ≠ []) {kw0 : Nat} (hk0 : kw0 ≤ 16) :
    verdict c env kw0 d.file = .ok () := by
  have hps : 0 < c.g.pageSize := by have := hc.ps; omega
  obtain ⟨hp, h, PE, PT, PK, PF, ix, F, L, S⟩ := id hd
  have hf := crash_self S
  have hs : Spoiled c kw d.file d.file := .refl L.zeroed
  rw [C57_verdict he hc hH hd hdb hf hs hk0]
  have I : Image c.g kw d.file hp.id h (PF + (PE + PT + PK)) := by
    refine Survives.image hf L.slot S.schema S.len S.head S.pages S.apart ?_
    obtain ⟨h1, h2⟩ := S.other hdb
    simp [h1, h2]
  obtain ⟨d', i', j1, j2, -⟩ := recover L I hk0
  obtain ⟨h', e1, hr, hz⟩ := hcp
  rw [L.header_eq] at e1
  cases e1
  obtain ⟨k1, -, -, k4, k5⟩ := reopen_spoiled hc I hs hk0 j1
  refine ⟨hl, d', h, j1, k1, fun p h1 h2 => ?_, fun q hq hfill => ?_⟩
  · obtain ⟨n, hn⟩ := hr p h1 h2
    exact ⟨n, by rw [k4 p h1 (readPage_inside hps hn), ← L.width]; exact hn⟩
  · obtain ⟨-, i, h1, -, h3⟩ := hfill h.nextPage (Nat.le_refl _) hq
    have := Nat.mul_le_mul_right c.g.pageSize L.limit
    exact absurd ((k5 i (by omega)).trans (hz i h1)) h3

/-- C57: files stay complete, as long as every page id that a transaction takes from the end of the file is still in use
when it commits. -/
theorem C57_stays (hc : ConfOk c kw) {w : PW} {s' : Spec.Db} (hT : Tx c hc H w s (Db.Abs.of H s')) (hcp : Complete c w.db) {io : IO}
    {d' : PDb} (hcm : PW.commit c io w = (.ok (), d'))
    (hnew : ∀ h, w.db.header = .ok h → ∀ p, h.nextPage ≤ p → p < (settled io w).nextPage → p ∈ (settled io w).dirty.ids) :
    Complete c d' := by
  obtain ⟨h, PE, PT, PK, PF, ix, F, L, S, PE', PT', PK', PF', ix', T⟩ := hT
  obtain ⟨u, w', hrun, PF'', N, R⟩ := T.ready io.ordLaw
  have L' : LiveAt c hc H { w.db with oldest := io.oldest } w.hp h PE PT PK PF ix F s := L.recache (fun _ _ h => .inl h) _
  have S' : SafeAt c kw { w.db with oldest := io.oldest } w.hp h (PF + (PE + PT + PK)) := ⟨S.1, S.2, S.3, S.4, S.5, S.6, S.7, S.8⟩
  have e : PW.commit c io w = commitPages c io w.hp w' { w.db with oldest := io.oldest } := by
    unfold PW.commit
    simp only [hrun]
  have hset : settled io w = w' := by unfold settled; rw [hrun]
  rw [hset] at hnew
  rw [e] at hcm
  obtain ⟨h0, e0, hr, hz⟩ := hcp
  rw [L.header_eq] at e0
  cases e0
  have hnew := hnew h L.header_eq
  have hown := (R.again io.oldest).own
  rcases commitPages_spec (R.again io.oldest) L' S' io with ⟨d1, hp', h1, h2, -, -, h3⟩ | ⟨e, d1, h1, -⟩
  · rw [hcm] at h1
    cases h1
    obtain ⟨l, hl, ht⟩ := h3.touched
    have hslot := h2.slot
    refine ⟨_, h2.header_eq, fun p hp1 hp2 => ?_, fun i hi => ?_⟩
    · rw [h2.width]
      by_cases hin : p ∈ ids (PF'' + (PE' + PT' + PK'))
      · obtain ⟨⟨q, n⟩, hm, rfl⟩ := Multiset.mem_map.mp hin
        exact ⟨n, h2.file _ _ hm⟩
      · have hlt : p < h.nextPage := by
          by_contra hge
          exact hin (hown.dirtyIn p (hnew p (by omega) hp2))
        obtain ⟨n, hn⟩ := hr p hp1 hlt
        rw [L.width] at hn
        refine ⟨n, ht.read ?_ hn⟩
        rw [List.mem_cons]
        rintro (rfl | hpl)
        · omega
        · exact hin (hl p hpl).2.2
    · have hgrow := h3.grows
      have a1 := Nat.mul_le_mul_right c.g.pageSize hgrow
      rw [ht.other i]
      · exact hz i (by omega)
      · intro p hp
        rcases List.mem_cons.mp hp with rfl | hpl
        · have a2 := Nat.mul_le_mul_right c.g.pageSize (show hp'.id + 1 ≤ (newHeader w' h.schema).nextPage from by have := h2.limit; omega)
          rw [Nat.succ_mul] at a2
          omega
        · have a2 := Nat.mul_le_mul_right c.g.pageSize (show p + 1 ≤ (newHeader w' h.schema).nextPage from (h2.body (hl p hpl).2.2).2)
          rw [Nat.succ_mul] at a2
          omega
  · rw [hcm] at h1; cases h1

/-- A new file is complete. -/
theorem create_complete (hc : ConfOk c 16) {m : Opened} {f disk : File} {l : List Nat} {o : Option Nat}
    (hcr : create c.g c.zeroFill emptyFile = (.ok m, f)) : Complete c (.fresh f m disk l o) := by
  have hps : 71 ≤ c.g.pageSize ∧ c.g.pageSize ≤ 2 ^ 32 := ⟨by have := hc.ps; omega, hc.big⟩
  obtain ⟨m', f', hcr', hcur, -, -, hpages⟩ := C47_create hps c.zeroFill
  rw [hcr] at hcr'
  cases hcr'
  refine ⟨initialHeader, (live_initial hc (fun _ => 0) hcur hpages disk l o).header_eq, fun p h1 h2 => ?_, fun i hi => ?_⟩
  · have h2 : p < 5 := h2
    have hkw : (PDb.fresh f m disk l o).m.kw = 16 := (live_initial hc (fun _ => 0) hcur hpages disk l o).width
    rw [hkw]
    obtain rfl | rfl | rfl : p = 2 ∨ p = 3 ∨ p = 4 := by omega
    · exact ⟨_, hpages (2, .freeLeaf [] []) (by simp [initialPages])⟩
    · exact ⟨_, hpages (3, .eventLeaf [] []) (by simp [initialPages])⟩
    · exact ⟨_, hpages (4, .tagsLeaf [] []) (by simp [initialPages])⟩
  · have hi : 5 * c.g.pageSize ≤ i := hi
    show f.byte i = 0
    have hz : emptyFile.Zeroed := fun _ _ => rfl
    obtain ⟨h1, hz1, -⟩ := createPages_spec hps c.zeroFill
    have hn := (C42_nothing_else c.g tagHashLen c.zeroFill initialPages emptyFile hz (by decide) i (by
      intro p hp
      simp only [initialPages, List.mem_cons, List.not_mem_nil, or_false] at hp
      rcases hp with rfl | rfl | rfl <;> simp only <;> omega)).1
    rw [show writePages c.g tagHashLen c.zeroFill initialPages emptyFile = createPages c.g c.zeroFill emptyFile from rfl] at hn
    rcases hcp : createPages c.g c.zeroFill emptyFile with ⟨r, f1⟩
    rw [hcp] at h1 hz1 hn
    simp only at h1 hz1 hn
    subst h1
    obtain ⟨b, hb⟩ := header_serializes (kw := tagHashLen) (by decide) (buf := List.replicate c.g.pageSize 0)
      (by simp; exact hps.1) c.zeroFill initialHeader
    have hbl : b.length = c.g.pageSize := by rw [serializePage_length hb]; simp
    obtain ⟨f2, hw2, hwr2⟩ := writeOnePage_spec (id := 1) (kw := tagHashLen) (by decide) (by simp) hps.2 hz1
      (initialHeader_fits _) hb
    obtain ⟨b', hb'⟩ := header_serializes (kw := tagHashLen) (by decide) (buf := b) (by omega) c.zeroFill initialHeader
    obtain ⟨f3, hw3, hwr3⟩ := writeOnePage_spec (id := 0) (kw := tagHashLen) (by decide) hbl hps.2 hwr2.zeroed
      (initialHeader_fits _) hb'
    unfold create at hcr
    rw [hcp] at hcr
    simp only [createHeaders, hw2, hb, hw3] at hcr
    cases hcr
    rw [hwr3.other i (by omega), hwr2.other i (by omega), hn]
    rfl

/-! ## What is reported although nothing is wrong -/

/-- A check that does not pass, on a database that can be opened, ends with this error. -/
theorem verdict_fails {env : Env} {kw0 : Nat} {d' : PDb} {h' : Header} (hr : reopen c kw0 f = .ok d') (hh : d'.header = .ok h')
    (hne : verdict c env kw0 f ≠ .ok ()) : verdict c env kw0 f = .error (.internal "Integrity check failed") := by
  obtain ⟨m, f1, p, ho, hl, rfl⟩ := reopen_inv hr
  have ha : asHeader p.node = .ok h' := by
    unfold PDb.header at hh
    rw [show (PDb.fresh f1 m f [1 - p.id] none).m = m from rfl, hl] at hh
    exact hh
  unfold verdict check at hne ⊢
  simp only [ho, hl, bind, Except.bind, ha] at hne ⊢
  split
  · next hp => rw [if_pos hp] at hne; exact absurd rfl hne
  · rfl

/-- C57 fails for databases without events: they are always reported as damaged. -/
theorem C57_empty_false {env : Env} (he : EnvOk env) (hc : ConfOk c kw) (hH : ∀ t, Codec.NormalizedTo kw (env.H t))
    (hd : Live c hc env.H d s) (hdb : d.doubt = false) (hl : s.log = []) {kw0 : Nat} (hk0 : kw0 ≤ 16) :
    verdict c env kw0 d.file = .error (.internal "Integrity check failed") ∧
      ∃ d', reopen c kw0 d.file = .ok d' ∧ Shows c env d' s := by
  obtain ⟨hp, h, PE, PT, PK, PF, ix, F, L, S⟩ := id hd
  have hf := crash_self S
  have I : Image c.g kw d.file hp.id h (PF + (PE + PT + PK)) := by
    refine Survives.image hf L.slot S.schema S.len S.head S.pages S.apart ?_
    obtain ⟨h1, h2⟩ := S.other hdb
    simp [h1, h2]
  obtain ⟨d', i', j1, j2, j3, -⟩ := recover L I hk0
  refine ⟨verdict_fails j1 j2.header_eq fun hv => ?_, d', j1, shows he hc hH ⟨_, _, _, _, _, _, _, _, j2, j3⟩⟩
  exact ((C57_verdict he hc hH hd hdb hf (.refl L.zeroed) hk0).mp hv).1 hl

theorem bump_spoiled (hps : 5 ≤ c.g.pageSize) {p : Nat} (hp2 : 2 ≤ p) {n : Node} (hr : readPage c.g kw p f = .ok n) (hz : f.Zeroed) :
    Spoiled c kw (bump f (p * c.g.pageSize + 1)) f ∧ ∃ e, readPage c.g kw p (bump f (p * c.g.pageSize + 1)) = .error e := by
  have hin := readPage_inside (by omega) hr
  have hbad : ∃ e, readPage c.g kw p (bump f (p * c.g.pageSize + 1)) = .error e := by
    refine hurt_unreadable hr (slot_bump_self ?_)
    rw [readPage_slot] at hr
    split at hr
    · cases hr
    · omega
  refine ⟨⟨rfl, fun i hi => ?_, fun k hk kw' => ?_, fun q m _ hq => ?_⟩, hbad⟩
  · simp only [bump] at hi ⊢
    rw [if_neg (by omega)]
    exact hz i hi
  · rw [readPage_slot, slot_bump (by omega) (by omega), ← readPage_slot]
  · by_cases hqp : q = p
    · subst hqp; exact .inr hbad
    · left; rw [readPage_slot, slot_bump (by omega) hqp, ← readPage_slot]; exact hq

/-- When a byte of a free page changes, the database is reported as damaged, though nothing recorded is lost. -/
theorem free_alarm {env : Env} (he : EnvOk env) (hc : ConfOk c kw) (hH : ∀ t, Codec.NormalizedTo kw (env.H t))
    (L : LiveAt c hc env.H d hp h PE PT PK PF ix F s) (S : SafeAt c kw d hp h (PF + (PE + PT + PK))) (hdb : d.doubt = false)
    (hcp : Complete c d) {p t : Nat} (hfree : (p, t) ∈ F) {kw0 : Nat} (hk0 : kw0 ≤ 16) :
    verdict c env kw0 (bump d.file (p * c.g.pageSize + 1)) = .error (.internal "Integrity check failed") ∧
      ∃ d', reopen c kw0 (bump d.file (p * c.g.pageSize + 1)) = .ok d' ∧ Shows c env d' s := by
  have hps : 5 ≤ c.g.pageSize := by have := hc.ps; omega
  have hpb : p ∈ bodyIds h.nextPage := by
    rw [← L.account]; exact Multiset.mem_add.mpr (.inr (Multiset.mem_map.mpr ⟨_, hfree, rfl⟩))
  have hpb := mem_bodyIds.mp hpb
  obtain ⟨h0, e0, hr, -⟩ := hcp
  rw [L.header_eq] at e0
  cases e0
  obtain ⟨n, hn⟩ := hr p hpb.1 hpb.2
  rw [L.width] at hn
  obtain ⟨hs, e, hbad⟩ := bump_spoiled hps hpb.1 hn L.zeroed
  have hf := crash_self S
  have I : Image c.g kw d.file hp.id h (PF + (PE + PT + PK)) := by
    refine Survives.image hf L.slot S.schema S.len S.head S.pages S.apart ?_
    obtain ⟨h1, h2⟩ := S.other hdb
    simp [h1, h2]
  have I' : Image c.g kw (bump d.file (p * c.g.pageSize + 1)) hp.id h (PF + (PE + PT + PK)) := by
    refine ⟨I.slot, I.schema, hs.zeroed, fun k => by rw [hs.heads _ I.slot]; exact I.head k,
      I.other.congr fun k => hs.heads _ (by have := I.slot; omega) k, fun q m hqm => ?_, by rw [hs.len]; exact I.len⟩
    have hne : q ≠ p := by
      rintro rfl
      have hnd : (bodyIds h.nextPage).Nodup := bodyIds_nodup _
      rw [← L.account, Multiset.nodup_add] at hnd
      exact Multiset.disjoint_left.mp hnd.2.2 (mem_ids_of hqm) (Multiset.mem_map.mpr ⟨_, hfree, rfl⟩)
    rw [readPage_slot, slot_bump (by omega) hne, ← readPage_slot]
    exact I.pages q m hqm
  obtain ⟨d', i', j1, j2, j3, -⟩ := recover L I' hk0
  refine ⟨verdict_fails j1 j2.header_eq fun hv => ?_, d', j1, shows he hc hH ⟨_, _, _, _, _, _, _, _, j2, j3⟩⟩
  have hd : Live c hc env.H d s := ⟨_, _, _, _, _, _, _, _, L, S⟩
  obtain ⟨-, d'', h'', k1, k2, k3, -⟩ := (C57_verdict he hc hH hd hdb hf hs hk0).mp hv
  obtain ⟨q1, -, -, q4, -⟩ := reopen_spoiled hc I hs hk0 k1
  rw [q1] at k2
  cases k2
  obtain ⟨m, hm⟩ := k3 p hpb.1 hpb.2
  rw [q4 p hpb.1 (readPage_inside (by omega) hn), hbad] at hm
  cases hm

/-! ## What the checker writes -/

/-- C57: a file with two readable headers is not changed. -/
theorem C57_readonly (c : Conf) (env : Env) (kw0 : Nat) (hz : f.Zeroed) {a b : Header} (h0 : readPage c.g kw0 0 f = .ok (.header a))
    (h1 : readPage c.g kw0 1 f = .ok (.header b)) : (check c env kw0 f).2 = f := by
  obtain ⟨h, -⟩ := C22_newest c.g kw0 c.zeroFill f hz h0 h1
  unfold check
  rcases ho : openExisting c.g kw0 c.zeroFill f with ⟨e | m, f1⟩ <;> rw [ho] at h <;> exact h

/-- C57 fails for files with one readable header: the checker changes the page of the other, and nothing else. -/
theorem C57_readonly_false (hc : ConfOk c kw) (env : Env) {kw0 : Nat} (hk0 : kw0 ≤ 16) (hz : f.Zeroed) {i j : Nat}
    (hij : (i = 0 ∧ j = 1) ∨ (i = 1 ∧ j = 0)) {a : Header} {e : Err}
    (h0 : readPage c.g kw0 i f = .ok (.header a)) (h1 : readPage c.g kw0 j f = .error e) :
    (∀ x, x < j * c.g.pageSize ∨ j * c.g.pageSize + c.g.pageSize ≤ x → (check c env kw0 f).2.byte x = f.byte x) ∧
      (check c env kw0 f).2 ≠ f := by
  have hps : 71 ≤ c.g.pageSize ∧ c.g.pageSize ≤ 2 ^ 32 := ⟨by have := hc.ps; omega, hc.big⟩
  obtain ⟨f', k1, k2, k3, -⟩ := C22_repair hps hk0 c.zeroFill f hz hij h0 h1
  have hck : (check c env kw0 f).2 = f' := by
    unfold check
    rcases ho : openExisting c.g kw0 c.zeroFill f with ⟨e | m, f1⟩ <;> rw [ho] at k1 <;> exact k1
  rw [hck]
  refine ⟨k3, fun hff => ?_⟩
  have := (k2 kw0).2
  rw [hff, h1] at this
  cases this

/-! ## Examples -/

/-- The root of the free list of a database, if it is such a leaf, names a free page. -/
theorem freeNow_mem (L : LiveAt c hc H d hp h PE PT PK PF ix F s) {w : Writer} (hroot : w.freeRoot = h.freeRoot)
    (hsees : ∀ p n, (p, n) ∈ PF → w.view p = some n) (hn : freeNow w = true) : ∃ x, x ∈ F := by
  obtain ⟨es, ht, rfl⟩ := L.free
  unfold freeNow at hn
  rw [hroot] at hn
  rcases ht with ⟨K, hK, e1, rfl, rfl, -⟩ | ⟨rfl, rfl⟩
  · cases hK with
    | leaf _ hlf =>
      obtain ⟨es, hne, e, hok, -⟩ := hlf
      rw [e] at hsees ⊢
      rw [e1, hsees K.id (frNode es) (by simp [frKid])] at hn
      match es, hne with
      | x :: es', _ =>
        simp only [frNode, List.map_cons, FreeEnt.val, beq_iff_eq] at hn
        rcases hok x (by simp) with ⟨-, -, -, hp⟩ | ⟨hr, -⟩
        · obtain ⟨y, hy⟩ := List.exists_mem_of_ne_nil _ hp
          exact ⟨(y, x.tsn), by simp [freeSet, frKid, hy]⟩
        · exact absurd hn hr
    | node id m R hm hR hfit =>
      rw [e1] at hn
      have : w.view (nodeKid (frLayout kw c.g.pageSize hc.ps).ops id [] m R).id =
          some ((frLayout kw c.g.pageSize hc.ps).ops.inner (keysOf [] R) (kidsOf [] m.id R)) := by
        refine hsees _ _ ?_
        simp [nodeKid]
      rw [this] at hn
      cases hn
  · rw [hsees h.freeRoot (frNode []) (by simp)] at hn
    cases hn

open Classical in
/-- The database with the two events of `exReq`: its file is complete, and a page is free. -/
theorem exChecked : ∃ (d : PDb) (hp : HPage) (h : Header) (PE PT PK PF : Multiset (Nat × Node)) (ix : Nat → List Nat) (F : Multiset (Nat × Nat)),
    LiveAt exConf exConf_ok exConstEnv.H d hp h PE PT PK PF ix F exAfter ∧ SafeAt exConf 16 d hp h (PF + (PE + PT + PK)) ∧ d.doubt = false ∧
    Complete exConf d ∧ ∃ x, x ∈ F := by
  obtain ⟨m, f, d, d', b, hcr, rfl, hd, ha, -, hB, hab, -, -, -, hcom, -, -, hnew, hfree⟩ := exCommittedAt none
  have he : EnvOk exConstEnv := ⟨fun l => List.Perm.refl l⟩
  obtain ⟨js', k1, -, hBI⟩ := hB.binv he (pageLawful exConf_ok exConstEnv_width) hd ha
  have hjs' : js' = [⟨1, exReq, noCancel⟩] := by simpa [appendJobs] using k1.symm
  subst hjs'
  have hT : Tx exConf exConf_ok exConstEnv.H b.w Spec.Db.empty _ := (hBI.good hab).1
  have hafter : (appendAll (Accepted exConf.g.pageSize) Spec.Db.empty ([(⟨1, exReq, noCancel⟩ : Job)].map (·.req))).2 = exAfter := by
    simp only [List.map_cons, List.map_nil, appendAll, exAppended]
  rw [hafter] at hT
  have hdb : b.w.db = .fresh f m f [] none := hB.db
  have hcp : Complete exConf b.w.db := by rw [hdb]; exact create_complete exConf_ok hcr
  have hcp' : Complete exConf d' := C57_stays exConf_ok hT hcp hcom (by
    intro h hh
    rw [hdb] at hh
    obtain ⟨h0, e0, -⟩ := create_complete exConf_ok hcr (disk := f) (l := []) (o := none)
    have h5 : h.nextPage = 5 := by
      obtain ⟨m', f', hcr', hcur, -, -, hpages⟩ := C47_create (g := exConf.g) ⟨by decide, by decide⟩ false
      rw [show create exConf.g false emptyFile = _ from hcr] at hcr'
      cases hcr'
      rw [(live_initial exConf_ok exConstEnv.H hcur hpages f [] none).header_eq] at hh
      cases hh; rfl
    rw [h5]
    exact hnew)
  obtain ⟨h, PE, PT, PK, PF, ix, F, L, S, PE', PT', PK', PF', ix', T⟩ := hT
  obtain ⟨u, w', hrun, PF'', N, R⟩ := T.ready exIO.ordLaw
  have L' : LiveAt exConf exConf_ok exConstEnv.H { b.w.db with oldest := none } b.w.hp h PE PT PK PF ix F Spec.Db.empty :=
    L.recache (fun _ _ h => .inl h) _
  have S' : SafeAt exConf 16 { b.w.db with oldest := none } b.w.hp h (PF + (PE + PT + PK)) := ⟨S.1, S.2, S.3, S.4, S.5, S.6, S.7, S.8⟩
  have e : PW.commit exConf { exIO with oldest := none } b.w = commitPages exConf { exIO with oldest := none } b.w.hp w' { b.w.db with oldest := none } := by
    unfold PW.commit
    simp only [hrun]
  have hset : settled { exIO with oldest := none } b.w = w' := by unfold settled; rw [show ({ exIO with oldest := none } : IO).ord = exIO.ord from rfl, hrun]
  rw [hset] at hfree
  rw [e] at hcom
  rcases commitPages_spec (R.again none) L' S' { exIO with oldest := none } with ⟨d1, hp', h1, h2, hs2, hdb2, h3⟩ | ⟨e, d1, h1, -⟩
  · rw [hcom] at h1
    cases h1
    refine ⟨_, _, _, _, _, _, _, _, _, h2, hs2, hdb2, hcp', freeNow_mem h2 rfl (fun p n hpn => ?_) hfree⟩
    exact (R.again none).own.sees p n (Multiset.mem_add.mpr (.inl hpn))
  · rw [hcom] at h1; cases h1

/-- C57 fails for damage that does not matter: there is a database whose file passes; when one byte of it changes, which is in
a free page, the file is reported as damaged, though it still shows everything. -/
theorem C57_free_false : ∃ (d : PDb) (p : Nat), Live exConf exConf_ok exConstEnv.H d exAfter ∧
    verdict exConf exConstEnv 16 d.file = .ok () ∧
    verdict exConf exConstEnv 16 (bump d.file (p * exConf.g.pageSize + 1)) = .error (.internal "Integrity check failed") ∧
    ∃ d', reopen exConf 16 (bump d.file (p * exConf.g.pageSize + 1)) = .ok d' ∧ Shows exConf exConstEnv d' exAfter := by
  obtain ⟨d, hp, h, PE, PT, PK, PF, ix, F, L, S, hdb, hcp, ⟨p, t⟩, hfree⟩ := exChecked
  have he : EnvOk exConstEnv := ⟨fun l => List.Perm.refl l⟩
  have hd : Live exConf exConf_ok exConstEnv.H d exAfter := ⟨_, _, _, _, _, _, _, _, L, S⟩
  obtain ⟨h1, h2⟩ := free_alarm he exConf_ok exConstEnv_width L S hdb hcp hfree (kw0 := 16) (Nat.le_refl _)
  exact ⟨d, p, hd, C57_passes he exConf_ok exConstEnv_width hd hdb hcp (by decide) (Nat.le_refl _), h1, h2⟩

/-- The same file, with a byte of a page with events changed, is found out. -/
example : ∃ (d : PDb) (p : Nat), Live exConf exConf_ok exConstEnv.H d exAfter ∧ verdict exConf exConstEnv 16 d.file = .ok () ∧
    Spoiled exConf 16 (bump d.file (p * exConf.g.pageSize + 1)) d.file ∧
    verdict exConf exConstEnv 16 (bump d.file (p * exConf.g.pageSize + 1)) ≠ .ok () := by
  obtain ⟨d, hp, h, PE, PT, PK, PF, ix, F, L, S, hdb, hcp, -⟩ := exChecked
  have he : EnvOk exConstEnv := ⟨fun l => List.Perm.refl l⟩
  have hd : Live exConf exConf_ok exConstEnv.H d exAfter := ⟨_, _, _, _, _, _, _, _, L, S⟩
  obtain ⟨K, hK, e1, rfl, -⟩ := L.trees.events
  obtain ⟨n, hn, -⟩ := hK.tr.root
  have hm : (K.id, n) ∈ PF + (K.pg + PT + PK) := Multiset.mem_add.mpr (.inr (Multiset.mem_add.mpr (.inl (Multiset.mem_add.mpr (.inl hn)))))
  have hb := L.body (mem_ids_of hm)
  obtain ⟨hs, e, hbad⟩ := bump_spoiled (kw := 16) (c := exConf) (by decide) hb.1 (L.file _ _ hm) L.zeroed
  refine ⟨d, K.id, hd, C57_passes he exConf_ok exConstEnv_width hd hdb hcp (by decide) (Nat.le_refl _), hs, fun hv => ?_⟩
  obtain ⟨-, d'', h'', k1, k2, k3, -⟩ := (C57_verdict he exConf_ok exConstEnv_width hd hdb (crash_self S) hs (Nat.le_refl _)).mp hv
  have I : Image exConf.g 16 d.file hp.id h (PF + (K.pg + PT + PK)) := by
    refine Survives.image (crash_self S) L.slot S.schema S.len S.head S.pages S.apart ?_
    obtain ⟨h1, h2⟩ := S.other hdb
    simp [h1, h2]
  obtain ⟨q1, -, -, q4, -⟩ := reopen_spoiled exConf_ok I hs (Nat.le_refl _) k1
  rw [q1] at k2
  cases k2
  obtain ⟨m, hm'⟩ := k3 K.id hb.1 hb.2
  rw [q4 K.id hb.1 (readPage_inside (by decide) (L.file _ _ hm)), hbad] at hm'
  cases hm'

/-- A new database fails the check. -/
example : ∃ (m : Opened) (f : File), create exConf.g exConf.zeroFill emptyFile = (.ok m, f) ∧
    verdict exConf exConstEnv 16 f = .error (.internal "Integrity check failed") := by
  obtain ⟨m, f, h1, h2⟩ := create_live exConf_ok exConstEnv.H
  exact ⟨m, f, h1, (C57_empty_false (d := .fresh f m f [] none) ⟨fun _ => List.Perm.refl _⟩ exConf_ok exConstEnv_width (h2 none) rfl rfl (Nat.le_refl _)).1⟩

/-- A new database, with a byte of one header page changed: the checker changes the file. -/
example : ∃ (m : Opened) (f : File), create exConf.g exConf.zeroFill emptyFile = (.ok m, f) ∧ (check exConf exConstEnv 16 f).2 = f ∧
    (check exConf exConstEnv 16 (bump f 1)).2 ≠ bump f 1 := by
  obtain ⟨m, f, h1, h2, h3, -⟩ := C47_create (g := exConf.g) ⟨by decide, by decide⟩ exConf.zeroFill
  have h0 := readPage_header_width h2.onDisk 16
  refine ⟨m, f, h1, C57_readonly exConf exConstEnv 16 h2.zeroed h0 h3, ?_⟩
  have hin := readPage_inside (by decide) h0
  obtain ⟨e, hbad⟩ : ∃ e, readPage exConf.g 16 0 (bump f (0 * exConf.g.pageSize + 1)) = .error e := by
    refine hurt_unreadable h0 (slot_bump_self ?_)
    rw [readPage_slot] at h0
    split at h0
    · cases h0
    · next h => have : exConf.g.pageSize = 4096 := rfl; omega
  rw [Nat.zero_mul, Nat.zero_add] at hbad
  refine (C57_readonly_false exConf_ok exConstEnv (Nat.le_refl _) (fun i hi => ?_) (.inr ⟨rfl, rfl⟩) (a := initialHeader) ?_ hbad).2
  · have hps : exConf.g.pageSize = 4096 := rfl
    simp only [bump] at hi ⊢
    rw [if_neg (by omega)]
    exact h2.zeroed i hi
  · rw [readPage_slot, show (1 : Nat) = 0 * exConf.g.pageSize + 1 from by simp, slot_bump (by decide) (by simp), ← readPage_slot]
    exact h3

end Uma.Props
