import Verif.Net.SyncProof
import Verif.Net.Rpc
import Verif.Core.Meta
import Verif.Props.Stream

/-!
# Properties of the network layer: C36, C37, C38, C39, C48
-/

namespace Uma.Props
open Uma.Spec Uma.Db Uma.Net
open Uma.Server (Response)

/-! ## C36: API key -/

/-- The value `Bearer <key>` as bytes. -/
def bearer (key : String) : List UInt8 := ("Bearer " ++ key).toUTF8.data.toList

/-- The bytes a header may contain: visible ASCII, space, tab. -/
def HeaderByte (b : UInt8) : Prop := (32 ≤ b.toNat ∧ b.toNat ≤ 126) ∨ b.toNat = 9

instance (b : UInt8) : Decidable (HeaderByte b) := by unfold HeaderByte; infer_instance

theorem visible_iff (b : UInt8) : visible b = true ↔ HeaderByte b := by
  have h : (b == 9) = true ↔ b.toNat = 9 := by
    rw [beq_iff_eq, ← UInt8.toNat_inj]
    rfl
  simp only [visible, HeaderByte, Bool.or_eq_true, Bool.and_eq_true, decide_eq_true_eq, h, UInt8.le_iff_toNat_le, UInt8.lt_iff_toNat_lt]
  have h1 : (32 : UInt8).toNat = 32 := rfl
  have h2 : (127 : UInt8).toNat = 127 := rfl
  rw [h1, h2]
  omega

/-- The unauthenticated refusal. -/
def Unauthenticated (s : Status) : Prop := s.code = .unauthenticated ∧ ∃ m, errOfStatus s = .authentication m

/-- C36: without a configured key the metadata do not matter. -/
theorem C36_no_key (md md' : Metadata) (call : Call) : handle none md call = handle none md' call := by
  cases call <;> rfl

/-- C36: no call is refused as unauthenticated when no key is configured. -/
theorem C36_no_key_not_refused (md : Metadata) (call : Call) (s : Status) (h : handle none md call = .error s) :
    ¬ Unauthenticated s := by
  have hne : ∀ e : Err, (∀ m, e ≠ .authentication m) → ¬ Unauthenticated (statusOfErr e) := by
    intro e he hu
    have := hu.1
    cases e <;> simp [statusOfErr, codeOf] at this
    exact he _ rfl
  cases call with
  | read r =>
    simp only [handle, enforceApiKey] at h
    split at h
    · cases h; exact hne _ (by simp)
    · cases h
  | subscribe => simp [handle, enforceApiKey] at h
  | append r =>
    simp only [handle, enforceApiKey] at h
    split at h
    · rename_i e he
      cases h
      refine hne e ?_
      have : ∀ (l : List PEvent) e, collect eventOfP l = .error e → ∀ m, e ≠ .authentication m := by
        intro l
        induction l with
        | nil => intro e h; cases h
        | cons a l ih =>
          intro e h m
          rw [collect] at h
          cases ha : eventOfP a with
          | error e' =>
            rw [ha] at h
            cases h
            unfold eventOfP at ha
            split at ha
            · cases ha
            · split at ha
              · cases ha
              · cases ha; simp
          | ok b =>
            rw [ha] at h
            simp only at h
            split at h
            · rename_i e'' h''; cases h; exact ih _ h'' m
            · cases h
      exact this _ _ he
    · cases h
  | head => simp [handle, enforceApiKey] at h
  | tracking => simp [handle, enforceApiKey] at h

/-- C36: with a key, a call whose first authorization header is not exactly `Bearer <key>` is refused as unauthenticated,
and nothing is done for it. -/
theorem C36_refused (key : String) (md : Metadata) (h : md.lookup "authorization" ≠ some (bearer key)) (call : Call) :
    ∃ s, handle (some key) md call = .error s ∧ Unauthenticated s := by
  have he : enforceApiKey (some key) md = .error (statusOfErr (.authentication "missing or invalid API key")) := by
    unfold enforceApiKey
    simp only
    rw [if_neg]
    cases hl : md.lookup "authorization" with
    | none => simp
    | some v =>
      rw [hl] at h
      simp only [Option.bind_some, toStr]
      split
      · simp only [Option.map_some, Option.getD_some, decide_eq_true_eq]
        intro hc; exact h (by rw [hc]; rfl)
      · simp
  refine ⟨statusOfErr (.authentication "missing or invalid API key"), ?_, ?_⟩
  · cases call <;> simp only [handle, he]
  · exact ⟨rfl, _, rfl⟩

/-- C36: a call with the right header is treated like any call on a server without key.  (The key must consist of
characters allowed in a header, otherwise the header cannot be sent.) -/
theorem C36_accepted (key : String) (md : Metadata) (h : md.lookup "authorization" = some (bearer key))
    (hv : ∀ b ∈ bearer key, HeaderByte b) (call : Call) : handle (some key) md call = handle none [] call := by
  have hv' : (bearer key).all visible = true := List.all_eq_true.mpr fun b hb => (visible_iff b).mpr (hv b hb)
  have he : enforceApiKey (some key) md = .ok () := by
    unfold enforceApiKey
    have : toStr (bearer key) = some (bearer key) := by rw [toStr, if_pos hv']
    simp only [h, Option.bind_some, this, Option.map_some, Option.getD_some]
    rw [if_pos]
    simp [bearer, bytesOf]
  have he0 : enforceApiKey none [] = .ok () := rfl
  cases call <;> simp only [handle, he, he0]

/-- C36: with a key that contains other characters a server refuses every call, and a client sends none: it reports an error. -/
theorem C36_unusable_key (key : String) (hv : ∃ b ∈ bearer key, ¬ HeaderByte b) :
    (∀ md call, ∃ s, handle (some key) md call = .error s ∧ Unauthenticated s) ∧
    ∀ c : ClientConfig, c.apiKey = some key → ∃ e, addAuth c = .error e := by
  have hall : ¬ (bearer key).all visible = true := by
    intro h
    obtain ⟨b, hb, hn⟩ := hv
    exact hn ((visible_iff b).mp (List.all_eq_true.mp h b hb))
  constructor
  · intro md call
    by_cases h : md.lookup "authorization" = some (bearer key)
    · have he : enforceApiKey (some key) md = .error (statusOfErr (.authentication "missing or invalid API key")) := by
        unfold enforceApiKey
        simp only [h, Option.bind_some, toStr, if_neg hall]
        rfl
      refine ⟨statusOfErr (.authentication "missing or invalid API key"), ?_, rfl, _, rfl⟩
      cases call <;> simp only [handle, he]
    · exact C36_refused key md h call
  · intro c hc
    unfold addAuth
    rw [hc]
    simp only
    split
    · exact ⟨_, rfl⟩
    · have hall' : ¬ (bytesOf ("Bearer " ++ key)).all visible = true := by
        have hb : bytesOf ("Bearer " ++ key) = bearer key := by simp [bearer, bytesOf]
        rwa [hb]
      rw [if_neg hall']
      exact ⟨_, rfl⟩

/-- C36: a client configured with the key passes the check; it never sends the key without TLS. -/
theorem C36_client (c : ClientConfig) (key : String) (hk : c.apiKey = some key) (md : Metadata) (h : addAuth c = .ok md) :
    c.tls = true ∧ enforceApiKey (some key) md = .ok () := by
  unfold addAuth at h
  rw [hk] at h
  simp only at h
  split at h
  · cases h
  · rename_i ht
    split at h
    · rename_i hv
      cases h
      refine ⟨by simpa using ht, ?_⟩
      simp [enforceApiKey, toStr, hv]
    · cases h

/-! ## C37: errors -/

/-- Categories that survive: the constructor of the error. -/
inductive Category
  | authentication | invalidArgument | integrity | corruption | serialization | internal | io
deriving DecidableEq

/-- Category of a store error, as the property counts them; unreadable data counts as corruption. -/
def category : Err → Category
  | .authentication _ => .authentication
  | .invalidArgument _ => .invalidArgument
  | .integrity _ => .integrity
  | .corruption _ | .databaseCorrupted _ | .deserialization _ => .corruption
  | .serialization _ => .serialization
  | .internal _ => .internal
  | _ => .io

/-- Text carried by an error as seen by a client. -/
def text : Err → String
  | .authentication m | .invalidArgument m | .integrity m | .corruption m | .serialization m | .internal m | .io m => m
  | e => display e

/-- C37: the client sees the same category and the full text of the server's error. -/
theorem C37_error_roundtrip (e : Err) :
    category (errOfStatus (statusOfErr e)) = category e ∧ text (errOfStatus (statusOfErr e)) = display e := by
  cases e <;> simp [statusOfErr, codeOf, errOfStatus, category, text]

/-- C37: that text determines the server's message: two errors of the same kind with the same text are equal. -/
theorem C37_message_preserved (m m' : String) :
    (display (.integrity m) = display (.integrity m') → m = m') ∧
    (display (.invalidArgument m) = display (.invalidArgument m') → m = m') ∧
    (display (.authentication m) = display (.authentication m') → m = m') ∧
    (display (.corruption m) = display (.corruption m') → m = m') ∧
    (display (.serialization m) = display (.serialization m') → m = m') ∧
    (display (.internal m) = display (.internal m') → m = m') := by
  have inj : ∀ p a b : String, p ++ a = p ++ b → a = b := by
    intro p a b h
    have := congrArg String.toList h
    simp only [String.toList_append] at this
    exact String.toList_injective (List.append_cancel_left this)
  exact ⟨inj _ _ _, inj _ _ _, inj _ _ _, inj _ _ _, inj _ _ _, inj _ _ _⟩

/-- C37, fallback: if the details are lost on the way the gRPC code still tells integrity, invalid argument,
authentication, corruption and internal errors apart; serialization errors then appear as invalid arguments. -/
theorem C37_fallback (e : Err) :
    text (errOfStatus { statusOfErr e with details := none }) = display e ∧
    (category e ≠ .serialization → category e ≠ .io →
      category (errOfStatus { statusOfErr e with details := none }) = category e) ∧
    (category e = .serialization → category (errOfStatus { statusOfErr e with details := none }) = .invalidArgument) := by
  cases e <;> simp [statusOfErr, codeOf, errOfStatus, category, text]

/-! ## C38: wire representation -/

/-- C38: events, also with uuid, metadata, tags in any number. -/
theorem C38_event (e : Event) : eventOfP (eventToP e) = .ok e := event_roundtrip e

theorem C38_query (q : Query) : queryOfP (queryToP q) = q := query_roundtrip q

theorem C38_condition (c : Condition) : conditionOfP (conditionToP c) = c := condition_roundtrip c

/-- C38: sequenced events, as the client decodes a message. -/
theorem C38_sequenced (l : List SeqEvent) : convertSequenced (l.map seqToP) = .ok l := convert_roundtrip l

/-- C38: UUID text: 36 characters, never empty, parsed back. -/
theorem C38_uuid (u : Uuid) : parseUuid (uuidText u) = some u ∧ uuidText u ≠ "" :=
  ⟨parse_uuidText u, uuidText_ne_empty u⟩

/-- C38, C36: the request a client submits is the request the writer thread receives. -/
theorem C38_append_reaches_writer (c : ClientConfig) (req : Request) (md : Metadata) (h : addAuth c = .ok md) :
    handle c.apiKey md (.append (appendBody req)) = .ok (.enqueue req) := by
  have he : enforceApiKey c.apiKey md = .ok () := by
    cases hk : c.apiKey with
    | none => rfl
    | some key => exact (C36_client c key hk md h).2
  obtain ⟨events, condition, tracking⟩ := req
  simp only [handle, he, appendBody, collect_events, Option.map_map]
  congr 3
  · cases condition <;> simp [condition_roundtrip]
  · cases tracking <;> rfl

/-- C38: a client's read is served with the client's arguments. -/
theorem C38_read_reaches_server (c : ClientConfig) (query : Option Query) (start : Option Nat) (backwards : Bool)
    (limit : Option Nat) (md : Metadata) (h : addAuth c = .ok md) :
    handle c.apiKey md (.read (readBody c query start backwards limit)) =
      .ok (.streamRead ⟨query, start, backwards, limit, Server.batchSizeOf c.batchSize⟩) := by
  have he : enforceApiKey c.apiKey md = .ok () := by
    cases hk : c.apiKey with
    | none => rfl
    | some key => exact (C36_client c key hk md h).2
  simp only [handle, he, readBody, Option.getD_none, Bool.false_eq_true, if_false, Option.getD_some, Option.map_map]
  cases query <;> simp [query_roundtrip]

/-- What the five methods of the client ask the server for, said without the wire format: batches have 1024 events unless
configured otherwise, at least one, at most 4096. -/
def asked (c : ClientConfig) : Ask → Action
  | .read query start backwards limit => .streamRead ⟨query, start, backwards, limit, max 1 (min (c.batchSize.getD 1024) 4096)⟩
  | .subscribe query after => .streamSubscribe query after (max 1 (min (c.batchSize.getD 1024) 4096))
  | .append r => .enqueue r
  | .head => .readHead
  | .tracking source => .readTracking source

/-- C38, C36: all five calls of a client reach the server with the client's arguments. -/
theorem C38_calls_reach_server (c : ClientConfig) (a : Ask) (md : Metadata) (h : addAuth c = .ok md) :
    handle c.apiKey md (a.call c) = .ok (asked c a) := by
  have hb : Server.batchSizeOf c.batchSize = max 1 (min (c.batchSize.getD 1024) 4096) := by
    rfl
  have he : enforceApiKey c.apiKey md = .ok () := by
    cases hk : c.apiKey with
    | none => rfl
    | some key => exact (C36_client c key hk md h).2
  cases a with
  | read query start backwards limit =>
    rw [asked, ← hb]; exact C38_read_reaches_server c query start backwards limit md h
  | subscribe query after =>
    rw [asked, ← hb]
    simp only [Ask.call, handle, he, Option.map_map]
    cases query <;> simp [query_roundtrip]
  | append r => exact C38_append_reaches_writer c r md h
  | head => simp only [Ask.call, handle, he, asked]
  | tracking source => simp only [Ask.call, handle, he, asked]

/-- C38, C37: what comes back.  A result is handed to the caller as it is, an error with its category and text; nothing is
sent by a client that refuses to send its key. -/
theorem C38_round_trip {α : Type} (c : ClientConfig) (serve : Action → Except Err α) (a : Ask) :
    (∀ md, addAuth c = .ok md →
      (∀ x, serve (asked c a) = .ok x → roundTrip c c.apiKey serve a = .ok x) ∧
      ∀ e, serve (asked c a) = .error e → ∃ e', roundTrip c c.apiKey serve a = .error e' ∧ category e' = category e ∧ text e' = display e) ∧
    (c.apiKey ≠ none → c.tls = false → ∀ serverKey, ∃ m, roundTrip c serverKey serve a = .error (.transport m)) := by
  refine ⟨fun md h => ⟨fun x hx => ?_, fun e hx => ⟨_, ?_, C37_error_roundtrip e⟩⟩, fun hk ht sk => ?_⟩
  · simp only [roundTrip, h, C38_calls_reach_server c a md h, hx]
  · simp only [roundTrip, h, C38_calls_reach_server c a md h, hx]
  · obtain ⟨k, hk⟩ := Option.ne_none_iff_exists'.mp hk
    refine ⟨"API key configured but TLS is not enabled; refusing to send credentials over insecure channel", ?_⟩
    simp only [roundTrip, addAuth, hk, ht, if_true]

/-- C38: reads sent by other programs: a missing direction is forward, `subscribe = false` is as if absent. -/
theorem C38_read_defaults (md : Metadata) (r : PRead) (hs : r.subscribe ≠ some true) :
    ∃ n, handle none md (.read r) = .ok (.streamRead ⟨r.query.map queryOfP, r.start, decide (r.backwards = some true), r.limit, n⟩) ∧
      1 ≤ n ∧ n ≤ 4096 ∧ (r.batchSize = none → n = 1024) ∧ ∀ b, r.batchSize = some b → 1 ≤ b → b ≤ 4096 → n = b := by
  refine ⟨Server.batchSizeOf r.batchSize, ?_, ?_, ?_, ?_, ?_⟩
  · obtain ⟨q, s, b, l, su, bs⟩ := r
    have h0 : su.getD false = false := by
      rcases su with _ | _ | _
      · rfl
      · rfl
      · exact absurd rfl hs
    have hb : b.getD false = decide (b = some true) := by rcases b with _ | _ | _ <;> rfl
    simp only [handle, enforceApiKey, h0, hb, Bool.false_eq_true, if_false]
  all_goals
    obtain ⟨q, s, b, l, su, bs⟩ := r
    simp only [Server.batchSizeOf]
  · omega
  · omega
  · rintro rfl; simp
  · rintro b rfl h1 h2; simp only [Option.getD_some]; omega

/-- C38: a read asking for the withdrawn `subscribe` argument is refused as an invalid argument. -/
theorem C38_read_deprecated (md : Metadata) (r : PRead) (hs : r.subscribe = some true) :
    ∃ s, handle none md (.read r) = .error s ∧ category (errOfStatus s) = .invalidArgument := by
  simp only [handle, enforceApiKey, hs, Option.getD_some, if_true]
  exact ⟨_, rfl, (C37_error_roundtrip _).1⟩

example : (∃ md, addAuth ⟨true, some "k", some 9⟩ = .ok md ∧
      handle (some "k") md (Ask.call ⟨true, some "k", some 9⟩ (.subscribe (some ⟨[⟨["E"], ["t"]⟩]⟩) (some 4))) =
        .ok (.streamSubscribe (some ⟨[⟨["E"], ["t"]⟩]⟩) (some 4) 9)) ∧
    (∃ e, roundTrip ⟨false, none, none⟩ none (fun _ => (.error (.integrity "no") : Except Err Nat)) .head = .error e ∧ category e = .integrity) :=
  ⟨⟨_, by simp only [addAuth, Bool.true_eq_false, if_false]; rw [if_pos (by decide +kernel)],
      C38_calls_reach_server ⟨true, some "k", some 9⟩ (.subscribe (some ⟨[⟨["E"], ["t"]⟩]⟩) (some 4)) _
        (by simp only [addAuth, Bool.true_eq_false, if_false]; rw [if_pos (by decide +kernel)])⟩,
    let ⟨e, h1, h2, _⟩ := ((C38_round_trip ⟨false, none, none⟩ (fun _ => (.error (.integrity "no") : Except Err Nat)) .head).1 [] rfl).2 _ rfl
    ⟨e, h1, h2⟩⟩

/-! ## C39: client iterators -/

/-- C39, async: whatever the server messages and whatever the calls, the answers hand out the events of the messages in
order, none lost or repeated; once `next` has said end, all have been handed out. -/
theorem C39_async (rs : List Response) (fail : Option Status) (ops : List Op) :
    ∃ rest, wanted rs fail = (runOps asyncOp (AsyncResp.new (wire rs fail)) ops).1.flatMap got ++ rest ∧
      (.item none ∈ (runOps asyncOp (AsyncResp.new (wire rs fail)) ops).1 → rest = []) := by
  obtain ⟨p, _, h2, h3⟩ := runOps_spec (step := asyncOp) (E := fun o => o = .item none)
    (fun a p => ∃ rs fail, AInv a rs fail ∧ p = aPending a rs fail)
    (by
      rintro a p op ⟨rs, fail, h, rfl⟩
      obtain ⟨rs', fail', h1, _, h2, h3, _⟩ := asyncOp_spec h op
      exact ⟨_, ⟨rs', fail', h1, rfl⟩, h2, h3⟩)
    ops _ (wanted rs fail) ⟨rs, fail, aInv_new rs fail, by simp [aPending, AsyncResp.new]⟩
  exact ⟨p, h2, fun hm => h3 ⟨_, hm, rfl⟩⟩

/-- C39, async, by batch: if an empty message comes only last, an empty batch also means that all was handed out. -/
theorem C39_async_batch (rs : List Response) (fail : Option Status) (hs : Shape fail rs) (ops : List Op) :
    ∃ rest, wanted rs fail = (runOps asyncOp (AsyncResp.new (wire rs fail)) ops).1.flatMap got ++ rest ∧
      ((∃ o ∈ (runOps asyncOp (AsyncResp.new (wire rs fail)) ops).1, SaysEnd o) → rest = []) := by
  obtain ⟨p, _, h2, h3⟩ := runOps_spec (step := asyncOp) (E := SaysEnd)
    (fun a p => ∃ rs fail, AInv a rs fail ∧ Shape fail rs ∧ p = aPending a rs fail)
    (by
      rintro a p op ⟨rs, fail, h, hs, rfl⟩
      obtain ⟨rs', fail', h1, h4, h2, _, h3⟩ := asyncOp_spec h op
      exact ⟨_, ⟨rs', fail', h1, h4 hs, rfl⟩, h2, h3 hs⟩)
    ops _ (wanted rs fail) ⟨rs, fail, aInv_new rs fail, hs, by simp [aPending, AsyncResp.new]⟩
  exact ⟨p, h2, h3⟩

/-- C39, sync: the same for the blocking client, for messages as the server sends them. -/
theorem C39_sync (rs : List Response) (fail : Option Status) (hs : Shape fail rs) (ops : List Op) :
    ∃ rest, wanted rs fail = (runOps syncOp (SyncResp.new (wire rs fail)) ops).1.flatMap got ++ rest ∧
      ((∃ o ∈ (runOps syncOp (SyncResp.new (wire rs fail)) ops).1, SaysEnd o) → rest = []) := by
  obtain ⟨p, _, h2, h3⟩ := runOps_spec (step := syncOp) (E := SaysEnd)
    (fun a p => ∃ rs fail, SInv a rs fail ∧ p = sPending a rs fail)
    (by
      rintro a p op ⟨rs, fail, h, rfl⟩
      obtain ⟨rs', fail', h1, h2, h3⟩ := syncOp_spec h op
      exact ⟨_, ⟨rs', fail', h1, rfl⟩, h2, h3⟩)
    ops _ (wanted rs fail) ⟨rs, fail, sInv_new rs fail hs, by simp [sPending, aPending, SyncResp.new, AsyncResp.new]⟩
  exact ⟨p, h2, h3⟩

/-- C39: plain iteration yields the items and then the end, async and sync. -/
theorem C39_iterate (rs : List Response) (fail : Option Status) :
    (runOps asyncOp (AsyncResp.new (wire rs fail)) (List.replicate ((wanted rs fail).length + 1) .next)).1 =
      (wanted rs fail).map (fun r => .item (some r)) ++ [.item none] ∧
    (Shape fail rs →
      (runOps syncOp (SyncResp.new (wire rs fail)) (List.replicate ((wanted rs fail).length + 1) .next)).1 =
        (wanted rs fail).map (fun r => .item (some r)) ++ [.item none]) := by
  constructor
  · refine runOps_next (step := asyncOp) (fun a p => ∃ rs fail, AInv a rs fail ∧ p = aPending a rs fail) ?_
      (wanted rs fail) _ ⟨rs, fail, aInv_new rs fail, by simp [aPending, AsyncResp.new]⟩
    rintro a p ⟨rs, fail, h, rfl⟩
    obtain ⟨rs', fail', h1, h2, h3, _, h5⟩ := asyncNext_spec h
    exact ⟨_, rfl, h5, _, ⟨rs', fail', h1, rfl⟩, h2, h3⟩
  · intro hs
    refine runOps_next (step := syncOp) (fun a p => ∃ rs fail, SInv a rs fail ∧ p = sPending a rs fail) ?_
      (wanted rs fail) _ ⟨rs, fail, sInv_new rs fail hs, by simp [sPending, aPending, SyncResp.new, AsyncResp.new]⟩
    rintro a p ⟨rs, fail, h, rfl⟩
    obtain ⟨rs', fail', h1, h2, h3⟩ := syncNext_spec h false
    exact ⟨_, rfl, syncNext_no_timeout h, _, ⟨rs', fail', h1, rfl⟩, h2, h3⟩

/-- C39: `head()`, whenever called, answers the head carried by the messages (all the same, without limit). -/
theorem C39_head (rs : List Response) (fail : Option Status) (h : Option Nat) (hne : rs ≠ []) (hh : ∀ r ∈ rs, r.head = h)
    (ops : List Op) :
    (∀ r, .head r ∈ (runOps asyncOp (AsyncResp.new (wire rs fail)) ops).1 → r = .ok h) ∧
    (∀ r, .head r ∈ (runOps syncOp (SyncResp.new (wire rs fail)) ops).1 → r = .ok h) :=
  ⟨runOps_head (step := asyncOp) (fun a => HInv a h) (fun _ op hi => hInv_asyncOp hi op) ops _ (hInv_new fail hh hne),
    runOps_head (step := syncOp) (fun s => HInv s.inner h) (fun _ op hi => hInv_syncOp hi op) ops _ (hInv_new fail hh hne)⟩

/-- An answer after the end. -/
def AfterEnd : Out → Prop
  | .item r => r = none
  | .batch r => r = .ok []
  | .head r => ∃ h, r = .ok h

theorem runOps_after {σ : Type} {step : σ → Op → Out × σ} (Done : σ → Prop) (P : Out → Prop)
    (hin : ∀ s op, (step s op).1 = .item none → Done (step s op).2)
    (hstay : ∀ s op, Done s → P (step s op).1 ∧ Done (step s op).2) :
    ∀ (ops : List Op) (s : σ), (Done s → ∀ o ∈ (runOps step s ops).1, P o) ∧
      ∀ l1 l2, (runOps step s ops).1 = l1 ++ .item none :: l2 → ∀ o ∈ l2, P o := by
  intro ops
  induction ops with
  | nil => intro s; exact ⟨fun _ => by simp [runOps], by simp [runOps]⟩
  | cons op ops ih =>
    intro s
    have e : (runOps step s (op :: ops)).1 = (step s op).1 :: (runOps step (step s op).2 ops).1 := rfl
    rw [e]
    constructor
    · intro hd o ho
      rcases List.mem_cons.mp ho with rfl | ho
      · exact (hstay s op hd).1
      · exact (ih _).1 (hstay s op hd).2 o ho
    · intro l1 l2 hl
      cases l1 with
      | nil =>
        simp only [List.nil_append, List.cons.injEq] at hl
        rw [← hl.2]
        exact (ih _).1 (hin s op hl.1)
      | cons x l1 =>
        simp only [List.cons_append, List.cons.injEq] at hl
        exact (ih _).2 l1 l2 hl.2

theorem pollStream_none : ∀ (inc : Incoming) (lh : Option (Option Nat)), (pollStream lh inc).1 = none →
    (pollStream lh inc).2.ended = true ∧ (pollStream lh inc).2.buffer = [] := by
  intro inc
  induction inc with
  | nil => intro lh _; exact ⟨rfl, rfl⟩
  | cons x inc ih =>
    intro lh h
    rcases x with s | r
    · simp [pollStream] at h
    · rcases hc : convertSequenced r.events with e | _ | ⟨ev, buf⟩
      · simp [pollStream, hc] at h
      · simp only [pollStream, hc] at h ⊢
        exact ih _ h
      · simp [pollStream, hc] at h

/-- C39, async: the end is final: after `next` has said end every call says end at once, with no error and no timeout,
whatever the transport held. -/
theorem C39_end_stays (inc : Incoming) (ops : List Op) (l1 l2 : List Out)
    (h : (runOps asyncOp (AsyncResp.new inc) ops).1 = l1 ++ .item none :: l2) : ∀ o ∈ l2, AfterEnd o := by
  refine (runOps_after (step := asyncOp) (fun a => a.ended = true ∧ a.buffer = []) AfterEnd ?_ ?_ ops (AsyncResp.new inc)).2 l1 l2 h
  · intro a op ho
    have key : (asyncNext a).1 = none → (asyncNext a).2.ended = true ∧ (asyncNext a).2.buffer = [] := by
      unfold asyncNext
      by_cases he : a.ended = true
      · rw [if_pos he]; exact fun _ => ⟨he, rfl⟩
      · rw [if_neg he]
        cases hb : a.buffer with
        | nil => exact pollStream_none _ _
        | cons ev buf => simp
    cases op <;> simp only [asyncOp, Out.item.injEq, reduceCtorEq] at ho ⊢
    · exact key ho
    · exact key ho
  · rintro a op ⟨he, hb⟩
    have hf : ∀ f, fetch f a = (.ok (), a) := fun f => by unfold fetch; rw [if_pos (Or.inr he)]
    have hnb : ∀ f, asyncNextBatch f a = (.ok [], { a with buffer := [] }) := by
      intro f; unfold asyncNextBatch; rw [if_neg (by simp [hb]), hf]; simp [hb]
    have hn : asyncNext a = (none, { a with buffer := [] }) := by unfold asyncNext; rw [if_pos he]
    cases op with
    | next => simp only [asyncOp, hn]; exact ⟨rfl, he, trivial⟩
    | nextTimeout f => simp only [asyncOp, hn]; exact ⟨rfl, he, trivial⟩
    | nextBatch => simp only [asyncOp, hnb]; exact ⟨rfl, he, trivial⟩
    | nextBatchTimeout f => simp only [asyncOp, hnb]; exact ⟨rfl, he, trivial⟩
    | head =>
      have hh : ∃ x, asyncHead a = (.ok x, a) := by
        unfold asyncHead
        cases a.lastHead with
        | some x => exact ⟨x, rfl⟩
        | none => simp only [hf]; exact ⟨_, rfl⟩
      obtain ⟨x, hx⟩ := hh
      simp only [asyncOp, hx]
      exact ⟨⟨x, rfl⟩, he, hb⟩

/-- C39, sync: after `next` or `next_timeout` has said end, both say end ever after. -/
theorem C39_sync_end_stays (inc : Incoming) (ops : List Op) (l1 l2 : List Out)
    (h : (runOps syncOp (SyncResp.new inc) ops).1 = l1 ++ .item none :: l2) : ∀ r, .item r ∈ l2 → r = none := by
  have hmain := (runOps_after (step := syncOp) (fun s => s.finished = true ∧ s.buffer = [])
    (fun o => ∀ r, o = .item r → r = none) ?_ ?_ ops (SyncResp.new inc)).2 l1 l2 h
  · exact fun r hr => hmain _ hr r rfl
  · intro s op ho
    have hpop : ∀ s : SyncResp, (popFront s).1 = none → s.buffer = [] ∧ (popFront s).2 = s := by
      intro s; unfold popFront
      cases hb : s.buffer <;> simp
    have key : ∀ f, (syncNext f s).1 = none → (syncNext f s).2.finished = true ∧ (syncNext f s).2.buffer = [] := by
      intro f
      unfold syncNext
      split
      · exact fun _ => ⟨rfl, rfl⟩
      split
      · rename_i hc
        intro hp
        obtain ⟨h1, h2⟩ := hpop s hp
        rw [h2]
        exact ⟨hc.resolve_left (by simp [h1]), h1⟩
      · unfold refill
        rcases asyncNextBatch f s.inner with ⟨_ | batch, i⟩
        · simp
        · by_cases hb : batch = []
          · simp only [if_pos hb]
            intro hp
            obtain ⟨h1, h2⟩ := hpop _ hp
            rw [h2]
            exact ⟨rfl, h1⟩
          · simp only [if_neg hb]
            intro hp
            exact absurd (hpop _ hp).1 hb
    cases op <;> simp only [syncOp, Out.item.injEq, reduceCtorEq] at ho ⊢
    · exact key _ ho
    · exact key _ ho
  · rintro s op ⟨hf, hb⟩
    have hn : ∀ f, syncNext f s = (none, s) := by
      intro f
      unfold syncNext
      rw [if_neg (by simp [hf]), if_pos (Or.inr hf)]
      simp [popFront, hb]
    have hnb : ∀ f, (syncNextBatch f s).2.finished = true ∧ (syncNextBatch f s).2.buffer = [] := by
      intro f
      unfold syncNextBatch
      rw [if_neg (by simp [hb])]
      unfold refill
      rcases asyncNextBatch f s.inner with ⟨_ | batch, i⟩
      · exact ⟨hf, hb⟩
      · by_cases hb : batch = []
        · simp only [if_pos hb]; exact ⟨trivial, trivial⟩
        · simp only [if_neg hb]; exact ⟨hf, trivial⟩
    cases op with
    | next => simp only [syncOp, hn]; exact ⟨fun r hr => by cases hr; rfl, hf, hb⟩
    | nextTimeout f => simp only [syncOp, hn]; exact ⟨fun r hr => by cases hr; rfl, hf, hb⟩
    | nextBatch => simp only [syncOp]; exact ⟨fun r hr => (by cases hr), hnb false⟩
    | nextBatchTimeout f => simp only [syncOp]; exact ⟨fun r hr => (by cases hr), hnb f⟩
    | head => simp only [syncOp, syncHead]; exact ⟨fun r hr => (by cases hr), hf, hb⟩

/-- After the end a timer that has run out is not reported. -/
example : (runOps asyncOp (AsyncResp.new (wire [⟨[⟨1, default, none⟩], none⟩] none))
      [.next, .next, .nextBatchTimeout true, .head]).1 =
    [.item (some (.ok ⟨1, default, none⟩)), .item none, .batch (.ok []), .head (.ok none)] := by decide +kernel

/-- C39 without the condition on empty messages fails for the blocking client: an empty message in mid-stream ends it. -/
theorem C39_sync_empty_message_false : ∃ (rs : List Response) (ops : List Op), ¬ ∃ rest,
    wanted rs none = (runOps syncOp (SyncResp.new (wire rs none)) ops).1.flatMap got ++ rest ∧
      ((∃ o ∈ (runOps syncOp (SyncResp.new (wire rs none)) ops).1, SaysEnd o) → rest = []) := by
  refine ⟨[⟨[], none⟩, ⟨[⟨1, default, none⟩], none⟩], [.next], ?_⟩
  rintro ⟨rest, h1, h2⟩
  have : (runOps syncOp (SyncResp.new (wire [⟨[], none⟩, ⟨[⟨1, default, none⟩], none⟩] none)) [.next]).1 = [.item none] := by
    decide +kernel
  rw [this] at h1 h2
  rw [h2 ⟨_, List.mem_singleton.mpr rfl, by simp [SaysEnd]⟩] at h1
  simp [wanted, got] at h1

/-- Messages of a stream as records (they are never errors, C33_heads). -/
def oks (ms : List (Except Err Response)) : List Response := ms.filterMap fun m => match m with | .ok r => some r | .error _ => none

theorem oks_events (ms : List (Except Err Response)) : (oks ms).flatMap (·.events) = Server.delivered ms := by
  induction ms with
  | nil => rfl
  | cons m ms ih =>
    cases m with
    | error e => simpa [oks, Server.delivered] using ih
    | ok r =>
      have h1 : oks (.ok r :: ms) = r :: oks ms := by simp [oks]
      have h2 : Server.delivered (.ok r :: ms) = r.events ++ Server.delivered ms := by simp [Server.delivered]
      rw [h1, h2, List.flatMap_cons, ih]

/-- C33, C38, C39 together: a client iterating over an uninterrupted Read call, async or sync, gets exactly the result of
one read of the log as it was when the stream started. -/
theorem C39_end_to_end {δ σ υ ι : Type} {B : Backend δ σ υ ι} {valid : Record → Prop} {env : Env} (he : EnvOk env)
    (L : Lawful B env.H valid) {dbs : Nat → δ} {log0 : Log} (R : Server.Rounds L dbs log0) (query : Option Query)
    (start : Option Nat) (backwards : Bool) (limit batchSize : Option Nat) (fuel : Nat) (hf : log0.length < fuel) :
    let ms := oks (Server.readCall B env query start (some backwards) limit batchSize dbs (fun _ => false)
      (fun _ => Cancel.never) fuel).1
    let want := (Spec.read log0 (query.getD ⟨[]⟩) start backwards limit)
    (runOps asyncOp (AsyncResp.new (wire ms none)) (List.replicate (want.length + 1) .next)).1 =
      want.map (fun e => .item (some (.ok e))) ++ [.item none] ∧
    (runOps syncOp (SyncResp.new (wire ms none)) (List.replicate (want.length + 1) .next)).1 =
      want.map (fun e => .item (some (.ok e))) ++ [.item none] := by
  intro ms want
  have hd := ((C33_stream_is_one_read he L R query start (some backwards) limit batchSize (fun _ => false)
    (fun _ => Cancel.never) fuel).2 (fun _ => rfl) (fun _ _ => rfl) hf).2
  have hw : wanted ms none = want.map .ok := by
    simp only [wanted, Option.map_none, Option.toList_none, List.append_nil, ms, oks_events]
    rw [hd]; rfl
  have hshape : Shape none ms := by
    have : (∀ r ∈ ms, r.events ≠ []) ∨ ms.length ≤ 1 := by
      by_cases hx : ∃ r ∈ ms, r.events = []
      · obtain ⟨r, hr, hre⟩ := hx
        right
        have hmem : .ok r ∈ (Server.readCall B env query start (some backwards) limit batchSize dbs (fun _ => false)
            (fun _ => Cancel.never) fuel).1 := by
          simp only [ms, oks, List.mem_filterMap] at hr
          obtain ⟨m, hm, hmr⟩ := hr
          cases m with
          | error e => simp at hmr
          | ok r' => simp at hmr; subst hmr; exact hm
        have := C33_empty_message_alone env query start (some backwards) limit batchSize dbs _ _ fuel r hmem hre
        simp only [ms]
        rw [this]; simp [oks]
      · left; intro r hr hc; exact hx ⟨r, hr, hc⟩
    rcases this with h | h
    · clear_value ms
      clear hw
      induction ms with
      | nil => trivial
      | cons r ms ih => exact ⟨fun hc => absurd hc (h r (by simp)), ih fun r hr => h r (by simp [hr])⟩
    · clear_value ms
      match ms, h with
      | [], _ => trivial
      | [r], _ => exact ⟨fun _ => ⟨rfl, rfl⟩, trivial⟩
  obtain ⟨h1, h2⟩ := C39_iterate ms none
  have h2 := h2 hshape
  rw [hw] at h1 h2
  simp only [List.length_map, List.map_map] at h1 h2
  exact ⟨h1, h2⟩

/-! ## C48: metadata builder -/

/-- Last value given for a key. -/
def lastValue (calls : List (String × String)) (k : String) : Option String :=
  (calls.reverse.find? fun c => c.1 == k).map (·.2)

/-- Keys in order of first use. -/
def firstUse (calls : List (String × String)) : List String :=
  calls.foldl (fun ks c => if c.1 ∈ ks then ks else ks ++ [c.1]) []

def build (m : Core.Meta) (calls : List (String × String)) : Core.Meta :=
  calls.foldl (fun m c => Core.metadataEntry m c.1 c.2) m

theorem keys_metadataEntry (m : Core.Meta) (k v : String) :
    (Core.metadataEntry m k v).map (·.1) = if k ∈ m.map (·.1) then m.map (·.1) else m.map (·.1) ++ [k] := by
  induction m with
  | nil => simp [Core.metadataEntry]
  | cons e m ih =>
    obtain ⟨k', v'⟩ := e
    rw [Core.metadataEntry]
    by_cases h : k' = k
    · simp [h]
    · rw [if_neg h, List.map_cons, ih]
      have hk : ¬ k = k' := fun hc => h hc.symm
      by_cases hm : k ∈ m.map (·.1)
      · rw [if_pos hm, if_pos (by simp only [List.map_cons, List.mem_cons]; exact Or.inr hm)]; rfl
      · rw [if_neg hm, if_neg (by simp only [List.map_cons, List.mem_cons, not_or]; exact ⟨hk, hm⟩)]; simp

theorem lookup_metadataEntry (m : Core.Meta) (k v x : String) :
    (Core.metadataEntry m k v).lookup x = if x = k then some v else m.lookup x := by
  induction m with
  | nil =>
    by_cases h : x = k
    · simp [Core.metadataEntry, List.lookup, h]
    · have : (x == k) = false := by simpa using h
      simp [Core.metadataEntry, List.lookup, h, this]
  | cons e m ih =>
    obtain ⟨k', v'⟩ := e
    rw [Core.metadataEntry]
    by_cases h : k' = k
    · subst h
      by_cases hx : x = k'
      · simp [List.lookup, hx]
      · have : (x == k') = false := by simpa using hx
        simp [List.lookup, hx, this]
    · rw [if_neg h]
      by_cases hx : x = k'
      · subst hx
        simp [List.lookup, h]
      · have : (x == k') = false := by simpa using hx
        simp only [List.lookup, this, ih]

/-- C48: keys in order of first use, each once, each with the last value given; the duplicate check passes. -/
theorem C48_builder_is_map (calls : List (String × String)) :
    (build [] calls).map (·.1) = firstUse calls ∧
    ((build [] calls).map (·.1)).Nodup ∧
    (∀ k, (build [] calls).lookup k = lastValue calls k) ∧
    Core.hasDuplicateKey (build [] calls) = false := by
  have hk : ∀ (calls : List (String × String)) (m : Core.Meta), (build m calls).map (·.1) =
      calls.foldl (fun ks c => if c.1 ∈ ks then ks else ks ++ [c.1]) (m.map (·.1)) := by
    intro calls
    induction calls with
    | nil => intro m; rfl
    | cons c calls ih =>
      intro m
      rw [build, List.foldl_cons, List.foldl_cons, ← keys_metadataEntry m c.1 c.2]
      exact ih _
  have hn : ∀ (calls : List (String × String)) (m : Core.Meta), (m.map (·.1)).Nodup → ((build m calls).map (·.1)).Nodup := by
    intro calls
    induction calls with
    | nil => intro m h; exact h
    | cons c calls ih =>
      intro m h
      rw [build, List.foldl_cons]
      apply ih
      rw [keys_metadataEntry]
      split
      · exact h
      · rename_i hc
        rw [List.nodup_append]
        exact ⟨h, by simp, by intro a ha b hb hab; simp at hb; subst hb; subst hab; exact hc ha⟩
  have hl : ∀ (calls : List (String × String)) (m : Core.Meta) k,
      (build m calls).lookup k = (lastValue calls k).or (m.lookup k) := by
    intro calls
    induction calls with
    | nil => intro m k; simp [build, lastValue]
    | cons c calls ih =>
      intro m k
      rw [build, List.foldl_cons]
      refine (ih _ k).trans ?_
      rw [lookup_metadataEntry]
      simp only [lastValue, List.reverse_cons, List.find?_append]
      cases List.find? (fun c => c.1 == k) calls.reverse with
      | some v => simp
      | none =>
        by_cases h : k = c.1
        · simp [h]
        · have : (c.1 == k) = false := by simpa using fun hc => h hc.symm
          simp [h, this]
  refine ⟨hk calls [], hn calls [] (by simp), fun k => ?_, ?_⟩
  · rw [hl calls [] k]; simp
  · exact (Core.hasDuplicateKey_iff _).mpr (hn calls [] (by simp))

/-- C48: the duplicate check is exact, in each of its three variants. -/
theorem C48_duplicate_check (m : Core.Meta) : Core.hasDuplicateKey m = true ↔ ¬ (m.map (·.1)).Nodup := by
  rw [← Core.hasDuplicateKey_iff]; simp

/-! ## Concrete cases -/

section Examples

def exUuid : Uuid := #v[0x12, 0x3e, 0x45, 0x67, 0xe8, 0x9b, 0x12, 0xd3, 0xa4, 0x56, 0x42, 0x66, 0x14, 0x17, 0x40, 0x0f]

example : uuidText exUuid = "123e4567-e89b-12d3-a456-42661417400f" := by decide +kernel
example : parseUuid "{123E4567-e89b-12d3-a456-42661417400F}" = some exUuid := by decide +kernel
example : parseUuid "urn:uuid:123e4567-e89b-12d3-a456-42661417400f" = some exUuid := by decide +kernel
example : parseUuid "123e4567e89b12d3a45642661417400f" = some exUuid := by decide +kernel
example : parseUuid "123e4567-e89b-12d3-a456-42661417400" = none := by decide +kernel
example : parseUuid "123e4567-e89b-12d3-a456-42661417400g" = none := by decide +kernel

def exCfg : ClientConfig := ⟨true, some "s3cret key", some 10⟩

example : addAuth exCfg = .ok [("authorization", bearer "s3cret key")] := by decide +kernel
example : ∃ s, handle (some "k") [("authorization", bearer "k ")] .head = .error s ∧ Unauthenticated s :=
  C36_refused "k" _ (by decide +kernel) .head
example : handle (some "k") [("authorization", bearer "k")] .head = .ok .readHead :=
  C36_accepted "k" _ (by decide +kernel) (by decide +kernel) .head

/-- A key with a letter outside ASCII makes the server refuse every call. -/
example : ∃ s, handle (some "clé") [("authorization", bearer "clé")] .head = .error s ∧ Unauthenticated s :=
  (C36_unusable_key "clé" (by decide +kernel)).1 _ _

example : errOfStatus (statusOfErr (.integrity "condition matched")) =
    .integrity "integrity error: condition failed: condition matched" := by decide +kernel

def exMsgs : List Response :=
  [⟨[⟨1, exEvent "a" ["x"], none⟩, ⟨2, exEvent "b" [], some ⟨"s", 4⟩⟩], some 3⟩, ⟨[⟨3, exEvent "a" [], none⟩], some 3⟩]

example : Shape none exMsgs := by simp [Shape, exMsgs]

/-- A mix of calls on the blocking client. -/
example : (runOps syncOp (SyncResp.new (wire exMsgs none))
      [.head, .next, .nextBatchTimeout true, .nextTimeout true, .nextBatch, .head, .next]).1 =
    [.head (.ok (some 3)), .item (some (.ok ⟨1, exEvent "a" ["x"], none⟩)),
     .batch (.ok [⟨2, exEvent "b" [], some ⟨"s", 4⟩⟩]), .item (some (.error .timeout)),
     .batch (.ok [⟨3, exEvent "a" [], none⟩]), .head (.ok (some 3)), .item none] := by decide +kernel

example : build [] [("a", "1"), ("b", "2"), ("a", "3")] = [("a", "3"), ("b", "2")] := by decide +kernel

/-- Ten entries with a repeated key: found by the variant using a set. -/
example : Core.hasDuplicateKey (("k1", "") :: ("k9", "") ::
    ["k2", "k3", "k4", "k5", "k6", "k7", "k8", "k9"].map fun k => (k, "")) = true := by decide +kernel

end Examples

end Uma.Props
