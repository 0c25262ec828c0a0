import Verif.Page.DbProof
import Verif.Props.Codec
import Verif.Props.Mvcc

/-!
# The page-level backend satisfies `Lawful`

So everything proved in `Verif/Db` about requests, batches and reads holds for databases made of pages in a file.
-/

namespace Uma.Page
open Uma.Codec Uma.Mvcc Uma.Spec

/-- Events that are accepted, `C26_validation`. -/
def Accepted (pageSize : Nat) (r : Record) : Prop :=
  r.event.tags.length ≤ 65535 ∧ Props.MetadataOk r.event.metadata ∧
    (pageSizeOf 16 (.eventLeaf [0] [.inline r]) ≤ pageSize ∨ Props.bareSize r ≤ pageSize)

/-- The database in the file, the cache and the pinned headers is `s`. -/
def Live (c : Conf) {kw : Nat} (hc : ConfOk c kw) (H : String → Db.TagHash) (d : PDb) (s : Spec.Db) : Prop :=
  ∃ hp h PE PT PK PF ix F, LiveAt c hc H d hp h PE PT PK PF ix F s ∧ SafeAt c kw d hp h (PF + (PE + PT + PK))

/-- The transaction `w`, started in state `s`, holds `a`. -/
def Tx (c : Conf) {kw : Nat} (hc : ConfOk c kw) (H : String → Db.TagHash) (w : PW) (s : Spec.Db) (a : Db.Abs) : Prop :=
  ∃ h PE PT PK PF ix F, LiveAt c hc H w.db w.hp h PE PT PK PF ix F s ∧
    SafeAt c kw w.db w.hp h (PF + (PE + PT + PK)) ∧ ∃ PE' PT' PK' PF' ix', TxAt c hc w.db h F w.wr PE' PT' PK' PF' ix' a

variable {c : Conf} {kw : Nat} {hc : ConfOk c kw} {H : String → Db.TagHash} {d : PDb} {hp : HPage} {h : Header}
  {PE PT PK PF : Multiset (Nat × Node)} {ix : Nat → List Nat} {F : Multiset (Nat × Nat)} {s : Spec.Db} {o : Option Nat}
  {PE' PT' PK' PF' : Multiset (Nat × Node)} {ix' : Nat → List Nat} {N : Multiset Nat} {s' : Spec.Db} {w : Writer}

theorem Ready.again (R : Ready c hc H d h F o w PE' PT' PK' PF' ix' N s') (o' : Option Nat) :
    Ready c hc H { d with oldest := o' } h F o w PE' PT' PK' PF' ix' N s' :=
  ⟨R.base, R.tsn, R.inv, R.freed, R.reused, R.queue, R.trees, R.index, R.next, R.grows⟩

/-- `Mvcc::commit`. -/
theorem commit_spec (L : LiveAt c hc H d hp h PE PT PK PF ix F s) (S : SafeAt c kw d hp h (PF + (PE + PT + PK))) {w : Writer}
    (T : TxAt c hc d h F w PE' PT' PK' PF' ix' (Db.Abs.of H s')) (io : IO) :
    (∃ d' hp' h' PF'' F', PW.commit c io ⟨d, hp, w⟩ = (.ok (), d') ∧
      LiveAt c hc H d' hp' h' PE' PT' PK' PF'' ix' F' s' ∧ SafeAt c kw d' hp' h' (PF'' + (PE' + PT' + PK')) ∧ d'.doubt = false ∧
      CommitAt c d.oldest d hp h (PF + (PE + PT + PK)) F d' hp' h' (PF'' + (PE' + PT' + PK')) F') ∨
    ∃ e d', PW.commit c io ⟨d, hp, w⟩ = (.error e, d') ∧ Db.Fatal e ∧ LiveAt c hc H d' hp h PE PT PK PF ix F s ∧
      SafeAt c kw d' hp h (PF + (PE + PT + PK)) ∧ d'.m = d.m := by
  obtain ⟨u, w', hrun, PF'', N, R⟩ := T.ready io.ordLaw
  have L' : LiveAt c hc H { d with oldest := io.oldest } hp h PE PT PK PF ix F s := L.recache (fun _ _ h => .inl h) _
  have S' : SafeAt c kw { d with oldest := io.oldest } hp h (PF + (PE + PT + PK)) := ⟨S.1, S.2, S.3, S.4, S.5, S.6, S.7, S.8⟩
  have e : PW.commit c io ⟨d, hp, w⟩ = commitPages c io hp w' { d with oldest := io.oldest } := by
    unfold PW.commit
    simp only [hrun]
  rw [e]
  rcases commitPages_spec (R.again io.oldest) L' S' io with ⟨d', hp', h1, h2, hs, hd, h3⟩ | ⟨e, d', h1, h2, h3, h4⟩
  · exact .inl ⟨d', hp', _, PF'', _, h1, h2, hs, hd, ⟨h3.1, h3.2, h3.3, h3.4, h3.5, h3.6, h3.7, h3.8, h3.9⟩⟩
  · exact .inr ⟨e, d', h1, h2, h3, h4⟩

noncomputable def pageLawful (hc : ConfOk c kw) (hH : ∀ t, NormalizedTo kw (H t)) :
    Db.Lawful (pageBackend c) H (Accepted c.g.pageSize) where
  RepD := Live c hc H
  Rep := Tx c hc H
  Fails _ := False
  fails h := h.elim
  snapR := by rintro d s ⟨_, _, _, _, _, _, _, _, L, S⟩; exact L.refines
  nextPosR := by
    rintro d s ⟨_, _, _, _, _, _, _, _, L, S⟩
    show PDb.nextPos d = _
    unfold PDb.nextPos
    rw [L.header_eq]; exact L.next
  trackR := by rintro d s src ⟨_, _, _, _, _, _, _, _, L, S⟩; exact L.track_eq src
  begin := by
    rintro d s ⟨_, _, _, _, _, _, _, _, L, S⟩
    obtain ⟨w, h1, -, h2⟩ := L.begin
    exact .inl ⟨_, h1, _, _, _, _, _, _, _, L, S, _, _, _, _, _, h2⟩
  snap := by rintro w s0 s ⟨_, _, _, _, _, _, _, -, -, _, _, _, _, _, T⟩; exact T.refines rfl
  Asks _ := True
  asks _ := trivial
  checks := by
    rintro w s0 s q ⟨_, _, _, _, _, _, _, -, -, _, _, _, _, _, T⟩ -
    exact Db.checks_of_refines (T.refines rfl) q _
  nextPos := by rintro w s0 a ⟨_, _, _, _, _, _, _, -, -, _, _, _, _, _, T⟩; exact T.nextPos
  issue := by
    rintro w s0 a ⟨_, _, _, _, _, _, _, L, S, _, _, _, _, _, T⟩
    exact ⟨T.nextPos, _, _, _, _, _, _, _, L, S, _, _, _, _, _, T.issue⟩
  validate r := by
    obtain ⟨h1, h2⟩ := Props.C26_validation c.g.pageSize r
    show (Accepted c.g.pageSize r ∧ ∃ v, validateEvent c.g.pageSize r = .ok v) ∨
      (¬ Accepted c.g.pageSize r ∧ ∃ m, validateEvent c.g.pageSize r = .error (.invalidArgument m))
    cases hv : validateEvent c.g.pageSize r with
    | ok v => exact .inl ⟨h1.mp ⟨v, hv⟩, v, rfl⟩
    | error e =>
      obtain ⟨m, rfl⟩ := h2 e hv
      refine .inr ⟨fun ha => ?_, m, rfl⟩
      obtain ⟨v, hv'⟩ := h1.mpr ha
      rw [hv] at hv'; cases hv'
  tagInsert := by
    rintro w s0 a hh p ⟨t, rfl⟩ ⟨_, _, _, _, _, _, _, L, S, _, _, _, _, _, T⟩ rfl -
    obtain ⟨u, w', hrun, _, _, T'⟩ := T.tagInsert (hH t)
    refine .inl ⟨{ w with wr := w' }, ?_, _, _, _, _, _, _, _, L, S, _, _, _, _, _, T'⟩
    show PW.run _ _ = _
    unfold PW.run
    rw [hrun]
  eventAppend := by
    rintro w s0 a r v p ⟨_, _, _, _, _, _, _, L, S, _, _, _, _, _, T⟩ hv rfl hn
    obtain ⟨u, w', hrun, _, T'⟩ := T.eventAppend (r := r) (v := v) hv (by omega)
    refine .inl ⟨{ w with wr := w' }, ?_, _, _, _, _, _, _, _, L, S, _, _, _, _, _, T'⟩
    show PW.run _ _ = _
    unfold PW.run
    rw [hrun]
  trackUpsert := by
    rintro w s0 a src pos ⟨_, _, _, _, _, _, _, L, S, _, _, _, _, _, T⟩
    left
    by_cases hsrc : 255 < src.utf8ByteSize
    · rw [if_pos hsrc]
      refine ⟨"tracking source too long", w, ?_, _, _, _, _, _, _, _, L, S, _, _, _, _, _, T⟩
      · show PW.run _ _ = _
        unfold PW.run
        rw [show Page.trackUpsert src pos w.wr = (.error (.invalidArgument "tracking source too long"), w.wr) from if_pos hsrc]
    · rw [if_neg hsrc]
      rcases T.trackUpsert src pos (by omega) with ⟨w', T', ⟨p, hp, hle⟩, m, hrun⟩ | ⟨hlt, hrun⟩
      · rw [if_pos ⟨p, hp, hle⟩]
        refine ⟨m, { w with wr := w' }, ?_, _, _, _, _, _, _, _, L, S, _, _, _, _, _, T'⟩
        show PW.run _ _ = _
        unfold PW.run
        rw [hrun]
      · rw [if_neg (by rintro ⟨p, hp, hle⟩; have := hlt p hp; omega)]
        obtain ⟨u, w', hrun, _, T'⟩ := hrun
        refine ⟨{ w with wr := w' }, ?_, _, _, _, _, _, _, _, L, S, _, _, _, _, _, T'⟩
        show PW.run _ _ = _
        unfold PW.run
        rw [hrun]
  commit := by
    rintro ⟨d, hp, w⟩ s0 s io ⟨_, _, _, _, _, _, _, L, S, _, _, _, _, _, T⟩
    rcases commit_spec L S T io with ⟨d', _, _, _, _, h1, L', S', -⟩ | ⟨e, d', h1, h2, L', S', -⟩
    · exact .inl ⟨d', h1, _, _, _, _, _, _, _, _, L', S'⟩
    · exact .inr ⟨e, d', h1, h2, .inl ⟨_, _, _, _, _, _, _, _, L', S'⟩⟩

/-! ## A new database -/

/-- The database of a process that just opened the file `f`, after a crash or an orderly end. -/
def PDb.fresh (f : File) (m : Opened) (disk : File) (loose : List Nat) (o : Option Nat) : PDb :=
  ⟨f, m, fun _ => none, o, disk, loose, false⟩

/-- The pages of a new database hold the empty state. -/
theorem live_initial (hc : ConfOk c 16) (H : String → Db.TagHash) {m : Opened} {f : File} {i : Nat} (hcur : Props.Current c.g f m i initialHeader)
    (hpages : ∀ p ∈ initialPages, readPage c.g 16 p.1 f = .ok p.2) (disk : File) (l : List Nat) (o : Option Nat) :
    LiveAt c hc H (.fresh f m disk l o) ⟨i, .header initialHeader⟩ initialHeader {(3, .eventLeaf [] [])} {(4, .tagsLeaf [] [])} 0
      {(2, .freeLeaf [] [])} (fun _ => []) 0 Spec.Db.empty where
  latest := hcur.pinned
  node := rfl
  slot := hcur.slot
  width := by show m.kw = _; rw [hcur.width]; rfl
  trees :=
    { events := ⟨evKid 3 [], .leaf _ ⟨[], rfl, by simp, by have := hc.ps; show 9 + 2 ≤ _; omega⟩, rfl, by simp [evKid, evNode, epg],
        by simp [evKid, Strict], by simp [evKid, SepEnt], by simp [evKid, Spec.Db.empty, numberFrom]⟩
      tags := ⟨tgKid 4 [], .leaf _ ⟨[], rfl, by simp, .inl (by have := hc.ps; simp [tgNode_size]; omega)⟩, rfl, by simp [tgKid, tgNode, tgPg], by simp [tgKid, Strict],
        fun h => .inr (by simp [tgKid])⟩
      track := .inl ⟨rfl, rfl, fun _ => rfl⟩ }
  index t := by simp [Db.idxOf, Spec.Db.empty, numberFrom]
  free := ⟨[], .inr ⟨rfl, rfl⟩, rfl⟩
  freeLe := by simp
  file p n hpn := by
    refine hpages (p, n) ?_
    simp at hpn; simp [initialPages]; tauto
  cache p n k hpn hk := by cases hk
  account := by decide
  limit := by decide
  next := rfl
  zeroed := hcur.zeroed

theorem readPage_len {g : Pager} {kw k : Nat} {f : File} {n : Node} (h : readPage g kw k f = .ok n) (hps : 0 < g.pageSize) :
    k * g.pageSize + g.pageSize ≤ f.len := by
  by_contra hc
  unfold readPage readPageBytes at h
  have : (f.readAt (k * g.pageSize) g.pageSize).length < g.pageSize := by simp [File.readAt]; omega
  simp only [if_pos this] at h
  cases h

/-- `Mvcc::new` on a path without a file: the empty database. -/
theorem create_live (hc : ConfOk c 16) (H : String → Db.TagHash) :
    ∃ m f, create c.g c.zeroFill emptyFile = (.ok m, f) ∧ ∀ o, Live c hc H (.fresh f m f [] o) Spec.Db.empty := by
  obtain ⟨m, f, h1, h2, h3, -, h5⟩ := Props.C47_create (g := c.g) ⟨by have := hc.ps; omega, hc.big⟩ c.zeroFill
  have hps := hc.ps
  refine ⟨m, f, h1, fun o => ⟨_, _, _, _, _, _, _, _, live_initial hc H h2 h5 f [] o, ?_⟩⟩
  have hkw : m.kw = 16 := by rw [h2.width]; rfl
  have hlen := readPage_len h3 (by omega)
  have hother : OtherOk c.g f 1 initialHeader := .inr ⟨_, readPage_header_width h3, .inr rfl⟩
  refine ⟨.inr ⟨rfl, rfl⟩, .refl h2.zeroed, by simp [PDb.fresh], ?_, h2.zeroed, ?_, ?_, fun _ => ⟨hother, hother⟩⟩
  · show 2 * c.g.pageSize ≤ f.len
    omega
  · exact readPage_header_width h2.onDisk
  · intro p n hpn
    refine h5 (p, n) ?_
    simp at hpn; simp [initialPages]; tauto

end Uma.Page
