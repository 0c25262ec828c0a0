import Verif.Net.WireProof
import Verif.Props.Net

/-!
# C66: messages as bytes, and the limit on their size
-/

namespace Uma.Props
open Uma.Spec Uma.Db Uma.Net
open Uma.Server (Response Rounds readCall)

/-! ## Sizes, apart from the encoder

The sizes are those of the protobuf specification: seven bits of a number a byte; a field of less than sixteen with a length
is one byte, the length, the contents. -/

/-- Bytes a number takes. -/
def digits (n : Nat) : Nat := Nat.log2 n / 7 + 1

/-- Bytes a field with `n` bytes of contents takes. -/
def framed (n : Nat) : Nat := 1 + digits n + n

def textSize (s : String) : Nat := if s = "" then 0 else framed s.utf8ByteSize

def eventSize (e : PEvent) : Nat :=
  textSize e.eventType + (e.tags.map fun t => framed t.utf8ByteSize).sum +
    (if e.data = [] then 0 else framed e.data.length) + textSize e.uuid +
    (e.metadata.map fun m => framed (textSize m.1 + textSize m.2)).sum

def trackingSize (t : PTracking) : Nat := textSize t.source + if t.position = 0 then 0 else 1 + digits t.position

def optSize {α : Type} (f : α → Nat) (o : Option α) : Nat := (o.map f).getD 0

def seqSize (e : PSeqEvent) : Nat :=
  (if e.position = 0 then 0 else 1 + digits e.position) + optSize (fun e => framed (eventSize e)) e.event +
    optSize (fun t => framed (trackingSize t)) e.tracking

def responseSize (r : PResponse) : Nat :=
  (r.events.map fun e => framed (seqSize e)).sum + optSize (fun n => 1 + digits n) r.head

def querySize (q : PQuery) : Nat :=
  (q.items.map fun i => framed ((i.types.map fun t => framed t.utf8ByteSize).sum + (i.tags.map fun t => framed t.utf8ByteSize).sum)).sum

def conditionSize (c : PCondition) : Nat :=
  optSize (fun q => framed (querySize q)) c.failIfEventsMatch + optSize (fun n => 1 + digits n) c.after

def appendSize (a : PAppend) : Nat :=
  (a.events.map fun e => framed (eventSize e)).sum + optSize (fun c => framed (conditionSize c)) a.condition +
    optSize (fun t => framed (trackingSize t)) a.tracking

/-- What a request takes; flags take two bytes. -/
def callSize : Call → Nat
  | .read r => optSize (fun q => framed (querySize q)) r.query + optSize (fun n => 1 + digits n) r.start +
      optSize (fun _ => 2) r.backwards + optSize (fun n => 1 + digits n) r.limit + optSize (fun _ => 2) r.subscribe +
      optSize (fun n => 1 + digits n) r.batchSize
  | .subscribe q after b => optSize (fun q => framed (querySize q)) q + optSize (fun n => 1 + digits n) after +
      optSize (fun n => 1 + digits n) b
  | .append r => appendSize r
  | .head => 0
  | .tracking source => textSize source

theorem varint_length (n : Nat) : (varint n).length = digits n := by
  induction n using Nat.strongRecOn with
  | ind n ih =>
    by_cases h : n < 128
    · rw [varint_small h, digits]
      have : n.log2 < 7 := by
        by_cases h0 : n = 0
        · subst h0; decide
        · exact (Nat.log2_lt h0).mpr h
      simp only [List.length_cons, List.length_nil]
      omega
    · rw [varint_big h, List.length_cons, ih _ (by omega)]
      have h7 : n.log2 = (n / 128).log2 + 7 := by
        have h0 : n / 128 ≠ 0 := by omega
        have h1 := Nat.log2_self_le h0
        have h2 := Nat.lt_log2_self (n := n / 128)
        refine (Nat.log2_eq_iff (by omega)).mpr ⟨?_, ?_⟩
        · rw [Nat.pow_add]; omega
        · rw [show (n / 128).log2 + 7 + 1 = ((n / 128).log2 + 1) + 7 by omega, Nat.pow_add]; omega
      simp only [digits]
      omega

theorem render_append (a b : List Field) : render (a ++ b) = render a ++ render b := by simp [render]

theorem key_length {k : Nat} (h : k < 16) : (varint (8 * k + 2)).length = 1 ∧ (varint (8 * k)).length = 1 := by
  rw [varint_small (by omega), varint_small (by omega)]; simp

theorem renderField_len {k : Nat} (h : k < 16) (bs : List UInt8) : (renderField (k, .len bs)).length = framed bs.length := by
  simp only [renderField, List.length_append, (key_length h).1, varint_length, framed]; omega

theorem renderField_num {k : Nat} (h : k < 16) (n : Nat) : (renderField (k, .num n)).length = 1 + digits n := by
  simp only [renderField, List.length_append, (key_length h).2, varint_length]

theorem render_str {k : Nat} (h : k < 16) (s : String) : (render (strField k s)).length = textSize s := by
  simp only [strField, textSize]
  split
  · rfl
  · simp [render, renderField_len h]

theorem render_bytes {k : Nat} (h : k < 16) (bs : List UInt8) :
    (render (bytesField k bs)).length = if bs = [] then 0 else framed bs.length := by
  simp only [bytesField]
  split
  · rfl
  · simp [render, renderField_len h]

theorem render_num {k : Nat} (h : k < 16) (n : Nat) : (render (numField k n)).length = if n = 0 then 0 else 1 + digits n := by
  simp only [numField]
  split
  · rfl
  · simp [render, renderField_num h]

theorem render_map {α : Type} {k : Nat} (h : k < 16) (g : α → List UInt8) (l : List α) :
    (render (l.map fun a => (k, .len (g a)))).length = (l.map fun a => framed (g a).length).sum := by
  induction l with
  | nil => rfl
  | cons a l ih =>
    simp only [render] at ih
    simp only [render, List.map_cons, List.flatMap_cons, List.length_append, List.sum_cons, renderField_len h, ih]

theorem render_opt {α : Type} {k : Nat} (h : k < 16) (g : α → List UInt8) (o : Option α) :
    (render (o.toList.map fun a => (k, .len (g a)))).length = optSize (fun a => framed (g a).length) o := by
  rw [render_map h]; cases o <;> simp [optSize]

theorem render_optNum {k : Nat} (h : k < 16) (o : Option Nat) :
    (render (optNum k o)).length = optSize (fun n => 1 + digits n) o := by
  cases o <;> simp [optNum, optSize, render, renderField_num h]

theorem event_length (e : PEvent) : (render (eventFields e)).length = eventSize e := by
  have he : ∀ m : String × String, (render (entryFields m)).length = textSize m.1 + textSize m.2 := by
    intro m; simp only [entryFields, render_append, List.length_append, render_str (show 1 < 16 by omega), render_str (show 2 < 16 by omega)]
  simp only [eventFields, render_append, List.length_append, render_str (show 1 < 16 by omega), render_str (show 4 < 16 by omega),
    render_map (show 2 < 16 by omega), render_map (show 5 < 16 by omega), render_bytes (show 3 < 16 by omega), he, eventSize,
    Codec.strBytes_length]

theorem tracking_length (t : PTracking) : (render (trackingFields t)).length = trackingSize t := by
  simp only [trackingFields, render_append, List.length_append, render_str (show 1 < 16 by omega), render_num (show 2 < 16 by omega), trackingSize]

theorem seq_length (e : PSeqEvent) : (render (seqFields e)).length = seqSize e := by
  simp only [seqFields, render_append, List.length_append, render_num (show 1 < 16 by omega), render_opt (show 2 < 16 by omega),
    render_opt (show 3 < 16 by omega), event_length, tracking_length, seqSize]

theorem response_length (r : PResponse) : (render (responseFields r)).length = responseSize r := by
  simp only [responseFields, render_append, List.length_append, render_map (show 1 < 16 by omega), render_optNum (show 2 < 16 by omega),
    seq_length, responseSize]

theorem query_length (q : PQuery) : (render (queryFields q)).length = querySize q := by
  simp only [queryFields, render_map (show 1 < 16 by omega), itemFields, render_append, List.length_append,
    render_map (show 2 < 16 by omega), Codec.strBytes_length, querySize]

theorem append_length (a : PAppend) : (render (appendFields a)).length = appendSize a := by
  have hc : ∀ c, (render (conditionFields c)).length = conditionSize c := by
    intro c
    simp only [conditionFields, render_append, List.length_append, render_opt (show 1 < 16 by omega), render_optNum (show 2 < 16 by omega),
      query_length, conditionSize]
  simp only [appendFields, render_append, List.length_append, render_map (show 1 < 16 by omega), render_opt (show 2 < 16 by omega),
    render_opt (show 3 < 16 by omega), event_length, tracking_length, hc, appendSize]

theorem bits_size (o : Option Bool) : optSize (fun n => 1 + digits n) (o.map bit) = optSize (fun _ => 2) o := by
  cases o with
  | none => rfl
  | some b => cases b <;> decide

theorem read_length (r : PRead) : (render (readFields r)).length = callSize (.read r) := by
  simp only [readFields, render_append, List.length_append, render_opt (show 1 < 16 by omega), render_optNum (show 2 < 16 by omega),
    render_optNum (show 3 < 16 by omega), render_optNum (show 4 < 16 by omega), render_optNum (show 5 < 16 by omega),
    render_optNum (show 6 < 16 by omega), query_length, bits_size, callSize]

theorem subscribe_length (q : Option PQuery) (a b : Option Nat) :
    (render (subscribeFields (q, a, b))).length = callSize (.subscribe q a b) := by
  simp only [subscribeFields, render_append, List.length_append, render_opt (show 1 < 16 by omega), render_optNum (show 2 < 16 by omega),
    render_optNum (show 3 < 16 by omega), query_length, callSize]

/-! ## What arrives -/

/-- The most a message may have to be received: 4 MiB. -/
def atMost : Nat := 4 * 1024 * 1024

/-- The refusal of a message that is too big, as the caller sees it. -/
def TooBig (e : Err) : Prop := ∃ m, e = .io m

theorem carry_cases {M : Type} {merge : M → Field → Option M} {zero : M} {fields : M → List Field} {m : M} {size : Nat}
    (hs : (render (fields m)).length = size)
    (hr : (render (fields m)).length < 2 ^ 64 → into merge zero (render (fields m)) = some m) :
    (size ≤ atMost → carry merge zero fields m = .ok m) ∧
    (atMost < size → ∃ s, carry merge zero fields m = .error s ∧ TooBig (errOfStatus s)) := by
  simp only [carry, hs] at *
  constructor
  · intro h
    simp only [atMost] at h
    rw [if_neg (by omega), if_neg (by simp only [recvLimit]; omega), hr (by omega)]
  · intro h
    simp only [atMost] at h
    by_cases h2 : 2 ^ 32 ≤ size
    · rw [if_pos h2]; exact ⟨_, rfl, _, rfl⟩
    · rw [if_neg h2, if_pos (by simp only [recvLimit]; omega)]
      exact ⟨_, rfl, _, rfl⟩

/-- Machine integers: positions of 64 bits, limits and batch sizes of 32. -/
def CallOk : Call → Prop
  | .read r => (∀ n, r.start = some n → n < 2 ^ 64) ∧ (∀ n, r.limit = some n → n < 2 ^ 32) ∧ ∀ n, r.batchSize = some n → n < 2 ^ 32
  | .subscribe _ after b => (∀ n, after = some n → n < 2 ^ 64) ∧ ∀ n, b = some n → n < 2 ^ 32
  | .append r => (∀ c, r.condition = some c → ∀ n, c.after = some n → n < 2 ^ 64) ∧ ∀ t, r.tracking = some t → t.position < 2 ^ 64
  | .head => True
  | .tracking _ => True

/-- C66: every request is received as it was sent when it has at most 4 MiB, and refused otherwise. -/
theorem C66_requests (call : Call) (ho : CallOk call) :
    (callSize call ≤ atMost → carryCall call = .ok call) ∧
    (atMost < callSize call → ∃ s, carryCall call = .error s ∧ TooBig (errOfStatus s)) := by
  cases call with
  | read r =>
    obtain ⟨h1, h2⟩ := carry_cases (read_length r) (into_read r ⟨ho.1, ho.2.1, ho.2.2⟩)
    refine ⟨fun h => by simp only [carryCall, h1 h]; rfl, fun h => ?_⟩
    obtain ⟨s, h3, h4⟩ := h2 h
    exact ⟨s, by simp only [carryCall, h3]; rfl, h4⟩
  | subscribe q a b =>
    obtain ⟨h1, h2⟩ := carry_cases (subscribe_length q a b) (into_subscribe (q, a, b) ho.1 ho.2)
    refine ⟨fun h => by simp only [carryCall, h1 h]; rfl, fun h => ?_⟩
    obtain ⟨s, h3, h4⟩ := h2 h
    exact ⟨s, by simp only [carryCall, h3]; rfl, h4⟩
  | append r =>
    obtain ⟨h1, h2⟩ := carry_cases (append_length r) (into_append r ⟨ho.1, ho.2⟩)
    refine ⟨fun h => by simp only [carryCall, h1 h]; rfl, fun h => ?_⟩
    obtain ⟨s, h3, h4⟩ := h2 h
    exact ⟨s, by simp only [carryCall, h3]; rfl, h4⟩
  | head => exact ⟨fun _ => rfl, fun h => absurd h (by simp [callSize, atMost])⟩
  | tracking s =>
    obtain ⟨h1, h2⟩ := carry_cases (render_str (show 1 < 16 by omega) s) (into_str s)
    refine ⟨fun h => by simp only [carryCall, h1 h]; rfl, fun h => ?_⟩
    obtain ⟨s, h3, h4⟩ := h2 h
    exact ⟨s, by simp only [carryCall, h3]; rfl, h4⟩

/-- C66: a call whose request has at most 4 MiB goes as if the records themselves had been handed over (C38); a larger
request fails without reaching the server's code, whatever that does. -/
theorem C66_round_trip {α : Type} (c : ClientConfig) (serverKey : Option String) (serve : Action → Except Err α) (a : Ask)
    (ho : CallOk (a.call c)) :
    (callSize (a.call c) ≤ atMost → roundTripWire c serverKey serve a = roundTrip c serverKey serve a) ∧
    (atMost < callSize (a.call c) → ∀ md, addAuth c = .ok md →
      ∃ e, TooBig e ∧ ∀ serverKey' (serve' : Action → Except Err α), roundTripWire c serverKey' serve' a = .error e) := by
  obtain ⟨h1, h2⟩ := C66_requests _ ho
  constructor
  · intro h
    simp only [roundTripWire, roundTrip, h1 h]
    cases addAuth c <;> rfl
  · intro h md hmd
    obtain ⟨s, h3, h4⟩ := h2 h
    exact ⟨_, h4, fun _ _ => by simp only [roundTripWire, hmd, h3]⟩

/-- C66: the small answers (position of an append, head, tracking position) and the error details are read back as sent. -/
theorem C66_answers (n : Nat) (o : Option Nat) (e : String × Nat) (hn : n < 2 ^ 64) (ho : ∀ n, o = some n → n < 2 ^ 64)
    (he : e.2 < 2 ^ 64) (hl : framed e.1.utf8ByteSize < 2 ^ 63) :
    carry mergeNum 0 (numField 1) n = .ok n ∧ carry mergeOptNum none (optNum 1) o = .ok o ∧
      into mergeError ("", 0) (render (errorFields e)) = some e := by
  have hd : ∀ n, n < 2 ^ 64 → digits n ≤ 10 := by
    intro n hn
    simp only [digits]
    by_cases h0 : n = 0
    · subst h0; decide
    · have := (Nat.log2_lt h0).mpr hn
      omega
  refine ⟨(carry_cases (render_num (show 1 < 16 by omega) n) fun _ => into_num n hn).1 ?_,
    (carry_cases (render_optNum (show 1 < 16 by omega) o) fun _ => into_optNum o ho).1 ?_, into_error e he ?_⟩
  · split
    · simp [atMost]
    · have := hd n hn; simp only [atMost]; omega
  · cases o with
    | none => simp [optSize, atMost]
    | some n => have := hd n (ho n rfl); simp only [optSize, Option.map_some, Option.getD_some, atMost]; omega
  · simp only [errorFields, render_append, List.length_append, render_str (show 1 < 16 by omega), render_num (show 2 < 16 by omega)]
    have h1 : textSize e.1 < 2 ^ 63 := by simp only [textSize]; split <;> omega
    have h2 := hd e.2 he
    split <;> omega

/-- A message of a stream as it goes over the wire. -/
def onWire (r : Response) : PResponse := ⟨r.events.map seqToP, r.head⟩

def Fits (r : Response) : Prop := responseSize (onWire r) ≤ atMost

/-- Positions in messages are 64 bit numbers. -/
structure MessageOk (r : Response) : Prop where
  position : ∀ e ∈ r.events, e.position < 2 ^ 64
  tracking : ∀ e ∈ r.events, ∀ t, e.tracking = some t → t.position < 2 ^ 64
  head : ∀ n, r.head = some n → n < 2 ^ 64

theorem MessageOk.toP {r : Response} (h : MessageOk r) : ResponseOk (onWire r) where
  events e he := by
    obtain ⟨x, hx, rfl⟩ := List.mem_map.mp he
    refine ⟨h.position x hx, ?_⟩
    intro t ht
    simp only [seqToP, Option.map_eq_some_iff] at ht
    obtain ⟨t', h1, rfl⟩ := ht
    exact h.tracking x hx t' h1
  head n hn := h.head n hn

theorem carry_message {r : Response} (h : MessageOk r) :
    (Fits r → carry mergeResponse noResponse responseFields (onWire r) = .ok (onWire r)) ∧
    (¬ Fits r → ∃ s, carry mergeResponse noResponse responseFields (onWire r) = .error s ∧ TooBig (errOfStatus s)) := by
  obtain ⟨h1, h2⟩ := carry_cases (response_length (onWire r)) (into_response _ h.toP)
  exact ⟨h1, fun h => h2 (by simp only [Fits] at h; omega)⟩

theorem wire_cons (r : Response) (rs : List Response) (fail : Option Status) :
    wire (r :: rs) fail = .ok (onWire r) :: wire rs fail := rfl

/-- C66: the messages of a stream arrive as sent up to the first that has more than 4 MiB; in place of that one the client
gets an error, and nothing after it. -/
theorem C66_stream (rs : List Response) (fail : Option Status) (ho : ∀ r ∈ rs, MessageOk r) :
    ((∀ r ∈ rs, Fits r) → transport (wire rs fail) = wire rs fail) ∧
    (∀ pre r post, rs = pre ++ r :: post → (∀ x ∈ pre, Fits x) → ¬ Fits r →
      ∃ s, transport (wire rs fail) = wire pre (some s) ∧ TooBig (errOfStatus s)) := by
  induction rs with
  | nil =>
    refine ⟨fun _ => ?_, fun pre r post h => absurd h (by simp)⟩
    cases fail <;> rfl
  | cons r rs ih =>
    obtain ⟨i1, i2⟩ := ih fun r hr => ho r (by simp [hr])
    obtain ⟨c1, c2⟩ := carry_message (ho r (by simp))
    constructor
    · intro h
      rw [wire_cons, transport, c1 (h r (by simp)), i1 fun r hr => h r (by simp [hr])]
    · intro pre x post h hp hx
      cases pre with
      | nil =>
        simp only [List.nil_append, List.cons.injEq] at h
        obtain ⟨rfl, rfl⟩ := h
        obtain ⟨s, h1, h2⟩ := c2 hx
        exact ⟨s, by rw [wire_cons, transport, h1]; rfl, h2⟩
      | cons y pre =>
        simp only [List.cons_append, List.cons.injEq] at h
        obtain ⟨rfl, h⟩ := h
        obtain ⟨s, h1, h2⟩ := i2 pre x post h (fun z hz => hp z (by simp [hz])) hx
        exact ⟨s, by rw [wire_cons, transport, c1 (hp _ (by simp)), h1, wire_cons], h2⟩

/-! ## Fields of other versions -/

inductive Kind
  | number
  | bytes
deriving DecidableEq

def kind : Wv → Kind
  | .num _ => .number
  | .len _ => .bytes

/-- The kinds of the fields 1, 2, … of each message (umadb.proto). -/
structure Typed {M : Type} (merge : M → Field → Option M) (kinds : List Kind) : Prop where
  unknown : ∀ m k v, kinds.length ≤ k → merge m (k + 1, v) = some m
  mistyped : ∀ m k v t, kinds[k]? = some t → t ≠ kind v → merge m (k + 1, v) = none

theorem typed_entry : Typed mergeEntry [.bytes, .bytes] :=
  ⟨by intro m k v h
      match k, h with
      | k + 2, _ => cases v <;> simp [mergeEntry],
   by intro m k v t h ht
      match k, h with
      | 0, h => cases h; cases v <;> simp_all [mergeEntry, kind]
      | 1, h => cases h; cases v <;> simp_all [mergeEntry, kind]⟩

theorem typed_event : Typed mergeEvent [.bytes, .bytes, .bytes, .bytes, .bytes] :=
  ⟨by intro m k v h
      match k, h with
      | k + 5, _ => cases v <;> simp [mergeEvent],
   by intro m k v t h ht
      match k, h with
      | 0, h => cases h; cases v <;> simp_all [mergeEvent, kind]
      | 1, h => cases h; cases v <;> simp_all [mergeEvent, kind]
      | 2, h => cases h; cases v <;> simp_all [mergeEvent, kind]
      | 3, h => cases h; cases v <;> simp_all [mergeEvent, kind]
      | 4, h => cases h; cases v <;> simp_all [mergeEvent, kind]⟩

theorem typed_tracking : Typed mergeTracking [.bytes, .number] :=
  ⟨by intro m k v h
      match k, h with
      | k + 2, _ => cases v <;> simp [mergeTracking],
   by intro m k v t h ht
      match k, h with
      | 0, h => cases h; cases v <;> simp_all [mergeTracking, kind]
      | 1, h => cases h; cases v <;> simp_all [mergeTracking, kind]⟩

theorem typed_seq : Typed mergeSeq [.number, .bytes, .bytes] :=
  ⟨by intro m k v h
      match k, h with
      | k + 3, _ => cases v <;> simp [mergeSeq],
   by intro m k v t h ht
      match k, h with
      | 0, h => cases h; cases v <;> simp_all [mergeSeq, kind]
      | 1, h => cases h; cases v <;> simp_all [mergeSeq, kind]
      | 2, h => cases h; cases v <;> simp_all [mergeSeq, kind]⟩

theorem typed_response : Typed mergeResponse [.bytes, .number] :=
  ⟨by intro m k v h
      match k, h with
      | k + 2, _ => cases v <;> simp [mergeResponse],
   by intro m k v t h ht
      match k, h with
      | 0, h => cases h; cases v <;> simp_all [mergeResponse, kind]
      | 1, h => cases h; cases v <;> simp_all [mergeResponse, kind]⟩

theorem typed_item : Typed mergeItem [.bytes, .bytes] :=
  ⟨by intro m k v h
      match k, h with
      | k + 2, _ => cases v <;> simp [mergeItem],
   by intro m k v t h ht
      match k, h with
      | 0, h => cases h; cases v <;> simp_all [mergeItem, kind]
      | 1, h => cases h; cases v <;> simp_all [mergeItem, kind]⟩

theorem typed_query : Typed mergeQuery [.bytes] :=
  ⟨by intro m k v h
      match k, h with
      | k + 1, _ => cases v <;> simp [mergeQuery],
   by intro m k v t h ht
      match k, h with
      | 0, h => cases h; cases v <;> simp_all [mergeQuery, kind]⟩

theorem typed_condition : Typed mergeCondition [.bytes, .number] :=
  ⟨by intro m k v h
      match k, h with
      | k + 2, _ => cases v <;> simp [mergeCondition],
   by intro m k v t h ht
      match k, h with
      | 0, h => cases h; cases v <;> simp_all [mergeCondition, kind]
      | 1, h => cases h; cases v <;> simp_all [mergeCondition, kind]⟩

theorem typed_append : Typed mergeAppend [.bytes, .bytes, .bytes] :=
  ⟨by intro m k v h
      match k, h with
      | k + 3, _ => cases v <;> simp [mergeAppend],
   by intro m k v t h ht
      match k, h with
      | 0, h => cases h; cases v <;> simp_all [mergeAppend, kind]
      | 1, h => cases h; cases v <;> simp_all [mergeAppend, kind]
      | 2, h => cases h; cases v <;> simp_all [mergeAppend, kind]⟩

theorem typed_read : Typed mergeRead [.bytes, .number, .number, .number, .number, .number] :=
  ⟨by intro m k v h
      match k, h with
      | k + 6, _ => cases v <;> simp [mergeRead],
   by intro m k v t h ht
      match k, h with
      | 0, h => cases h; cases v <;> simp_all [mergeRead, kind]
      | 1, h => cases h; cases v <;> simp_all [mergeRead, kind]
      | 2, h => cases h; cases v <;> simp_all [mergeRead, kind]
      | 3, h => cases h; cases v <;> simp_all [mergeRead, kind]
      | 4, h => cases h; cases v <;> simp_all [mergeRead, kind]
      | 5, h => cases h; cases v <;> simp_all [mergeRead, kind]⟩

theorem typed_subscribe : Typed mergeSubscribe [.bytes, .number, .number] :=
  ⟨by intro m k v h
      match k, h with
      | k + 3, _ => cases v <;> simp [mergeSubscribe],
   by intro m k v t h ht
      match k, h with
      | 0, h => cases h; cases v <;> simp_all [mergeSubscribe, kind]
      | 1, h => cases h; cases v <;> simp_all [mergeSubscribe, kind]
      | 2, h => cases h; cases v <;> simp_all [mergeSubscribe, kind]⟩

theorem typed_num : Typed mergeNum [.number] :=
  ⟨by intro m k v h
      match k, h with
      | k + 1, _ => cases v <;> simp [mergeNum],
   by intro m k v t h ht
      match k, h with
      | 0, h => cases h; cases v <;> simp_all [mergeNum, kind]⟩

theorem typed_optNum : Typed mergeOptNum [.number] :=
  ⟨by intro m k v h
      match k, h with
      | k + 1, _ => cases v <;> simp [mergeOptNum],
   by intro m k v t h ht
      match k, h with
      | 0, h => cases h; cases v <;> simp_all [mergeOptNum, kind]⟩

theorem typed_str : Typed mergeStr [.bytes] :=
  ⟨by intro m k v h
      match k, h with
      | k + 1, _ => cases v <;> simp [mergeStr],
   by intro m k v t h ht
      match k, h with
      | 0, h => cases h; cases v <;> simp_all [mergeStr, kind]⟩

theorem typed_error : Typed mergeError [.bytes, .number] :=
  ⟨by intro m k v h
      match k, h with
      | k + 2, _ => cases v <;> simp [mergeError],
   by intro m k v t h ht
      match k, h with
      | 0, h => cases h; cases v <;> simp_all [mergeError, kind]
      | 1, h => cases h; cases v <;> simp_all [mergeError, kind]⟩

/-- C66: every message (`typed_entry` … `typed_error`) is read as if the fields it does not know were not there, and not at
all when a field it knows has the wrong kind. -/
theorem C66_fields {M : Type} {merge : M → Field → Option M} {kinds : List Kind} (ht : Typed merge kinds) (m : M)
    (fs : List Field) (ho : ∀ f ∈ fs, FieldOk f) :
    into merge m (render fs) = into merge m (render (fs.filter fun f => f.1 ≤ kinds.length)) ∧
    ((∃ k v t, (k + 1, v) ∈ fs ∧ kinds[k]? = some t ∧ t ≠ kind v) → into merge m (render fs) = none) := by
  rw [into_render ho, into_render fun f hf => ho f (List.mem_filter.mp hf).1]
  constructor
  · clear ho
    induction fs generalizing m with
    | nil => rfl
    | cons f fs ih =>
      rw [List.filter_cons]
      split
      · simp only [mergeAll]
        cases merge m f with
        | none => rfl
        | some m' => exact ih m'
      · next h =>
        obtain ⟨k, v⟩ := f
        simp only [decide_eq_true_eq] at h
        obtain ⟨k, rfl⟩ : ∃ j, k = j + 1 := ⟨k - 1, by omega⟩
        rw [mergeAll, ht.unknown m k v (by omega)]
        exact ih m
  · rintro ⟨k, v, t, hmem, hk, hne⟩
    clear ho
    induction fs generalizing m with
    | nil => simp at hmem
    | cons f fs ih =>
      simp only [mergeAll]
      rcases List.mem_cons.mp hmem with rfl | hmem
      · rw [ht.mistyped m k v t hk hne]; rfl
      · cases merge m f with
        | none => rfl
        | some m' => exact ih m' hmem

/-- Field `k` holds text (a message with bytes there that are those of no string is not read). -/
def Text {M : Type} (merge : M → Field → Option M) (k : Nat) : Prop :=
  ∀ (m : M) (fs : List Field), (∀ f ∈ fs, FieldOk f) → (∃ bs, (k, .len bs) ∈ fs ∧ ∀ s : String, Codec.strBytes s ≠ bs) →
    into merge m (render fs) = none

theorem text_bytes {bs : List UInt8} {s : String} (h : Codec.bytesStr bs = some s) : Codec.strBytes s = bs := by
  simp only [Codec.bytesStr, String.fromUTF8?] at h
  split at h
  · cases h; simp [Codec.strBytes, String.fromUTF8]
  · cases h

theorem text_of {M : Type} {merge : M → Field → Option M} {k : Nat}
    (h : ∀ m bs, Codec.bytesStr bs = none → merge m (k, .len bs) = none) : Text merge k := by
  intro m fs ho ⟨bs, hmem, hbs⟩
  have hn : Codec.bytesStr bs = none := by
    cases hx : Codec.bytesStr bs with
    | none => rfl
    | some s => exact absurd (text_bytes hx) (hbs s)
  rw [into_render ho]
  clear ho
  induction fs generalizing m with
  | nil => cases hmem
  | cons f fs ih =>
    simp only [mergeAll]
    rcases List.mem_cons.mp hmem with rfl | hmem
    · rw [h m bs hn]; rfl
    · cases merge m f with
      | none => rfl
      | some m' => exact ih m' hmem

/-- C66: a message is not read at all when the bytes of one of its texts are those of no string. -/
theorem C66_text : Text mergeEntry 1 ∧ Text mergeEntry 2 ∧ Text mergeEvent 1 ∧ Text mergeEvent 2 ∧ Text mergeEvent 4 ∧
    Text mergeTracking 1 ∧ Text mergeItem 1 ∧ Text mergeItem 2 ∧ Text mergeStr 1 ∧ Text mergeError 1 := by
  refine ⟨?_, ?_, ?_, ?_, ?_, ?_, ?_, ?_, ?_, ?_⟩ <;> refine text_of fun m bs h => ?_
  all_goals simp [mergeEntry, mergeEvent, mergeTracking, mergeItem, mergeStr, mergeError, h]

/-- Field `k` holds a message of which there is at most one. -/
def Merged {M : Type} (merge : M → Field → Option M) (k : Nat) : Prop :=
  ∀ (m : M) (a b : List Field), (∀ f ∈ a ++ b, FieldOk f) → (render (a ++ b)).length < 2 ^ 64 →
    into merge m (render [(k, .len (render a)), (k, .len (render b))]) = into merge m (render [(k, .len (render (a ++ b)))])

theorem into_append {M : Type} (merge : M → Field → Option M) (m : M) (a b : List Field) (ho : ∀ f ∈ a ++ b, FieldOk f) :
    into merge m (render (a ++ b)) = (into merge m (render a)).bind fun m' => into merge m' (render b) := by
  have ha : ∀ f ∈ a, FieldOk f := fun f hf => ho f (List.mem_append_left _ hf)
  have hb : ∀ f ∈ b, FieldOk f := fun f hf => ho f (List.mem_append_right _ hf)
  rw [into_render ho, into_render ha, mergeAll_append]
  congr 1
  funext m'
  rw [into_render hb]

theorem merged_of {M N : Type} {merge : M → Field → Option M} {k : Nat} (hk : 0 < k) (hk' : k < 2 ^ 29)
    (sub : N → Field → Option N) (get : M → N) (set : M → N → M) (hgs : ∀ m n, get (set m n) = n)
    (hss : ∀ m n n', set (set m n) n' = set m n')
    (h : ∀ m bs, merge m (k, .len bs) = (into sub (get m) bs).map (set m)) : Merged merge k := by
  intro m a b ho hlen
  have hl : (render (a ++ b)).length = (render a).length + (render b).length := by rw [render_append, List.length_append]
  have ok : ∀ bs : List UInt8, bs.length < 2 ^ 64 → FieldOk (k, .len bs) := fun bs hb => ⟨hk, hk', hb⟩
  rw [into_render (by
      intro f hf
      rcases List.mem_cons.mp hf with rfl | hf
      · exact ok _ (by omega)
      · rw [List.mem_singleton] at hf; subst hf; exact ok _ (by omega)),
    into_render (by intro f hf; rw [List.mem_singleton] at hf; subst hf; exact ok _ hlen)]
  simp only [mergeAll, h]
  rw [into_append sub _ a b ho]
  cases into sub (get m) (render a) with
  | none => rfl
  | some n =>
    simp only [Option.map_some, Option.bind_some, hgs]
    cases into sub n (render b) with
    | none => rfl
    | some n' => simp [hss]

/-- C66: a message field found twice is read as one with both contents. -/
theorem C66_merged : Merged mergeSeq 2 ∧ Merged mergeSeq 3 ∧ Merged mergeCondition 1 ∧ Merged mergeAppend 2 ∧
    Merged mergeAppend 3 ∧ Merged mergeRead 1 ∧ Merged mergeSubscribe 1 :=
  ⟨merged_of (by decide) (by decide) mergeEvent (fun m => m.event.getD noEvent) (fun m n => { m with event := some n })
      (fun _ _ => rfl) (fun _ _ _ => rfl) (fun _ _ => rfl),
   merged_of (by decide) (by decide) mergeTracking (fun m => m.tracking.getD noTracking) (fun m n => { m with tracking := some n })
      (fun _ _ => rfl) (fun _ _ _ => rfl) (fun _ _ => rfl),
   merged_of (by decide) (by decide) mergeQuery (fun m => m.failIfEventsMatch.getD ⟨[]⟩)
      (fun m n => { m with failIfEventsMatch := some n }) (fun _ _ => rfl) (fun _ _ _ => rfl) (fun _ _ => rfl),
   merged_of (by decide) (by decide) mergeCondition (fun m => m.condition.getD ⟨none, none⟩)
      (fun m n => { m with condition := some n }) (fun _ _ => rfl) (fun _ _ _ => rfl) (fun _ _ => rfl),
   merged_of (by decide) (by decide) mergeTracking (fun m => m.tracking.getD noTracking) (fun m n => { m with tracking := some n })
      (fun _ _ => rfl) (fun _ _ _ => rfl) (fun _ _ => rfl),
   merged_of (by decide) (by decide) mergeQuery (fun m => m.query.getD ⟨[]⟩) (fun m n => { m with query := some n })
      (fun _ _ => rfl) (fun _ _ _ => rfl) (fun _ _ => rfl),
   merged_of (by decide) (by decide) mergeQuery (fun m => m.1.getD ⟨[]⟩) (fun m n => (some n, m.2.1, m.2.2))
      (fun _ _ => rfl) (fun _ _ _ => rfl) (fun _ _ => rfl)⟩

/-- The event in two parts: type in one, data in the other. -/
example : into mergeSeq noSeq (render [(2, .len (render [(1, .len [65])])), (1, .num 4), (2, .len (render [(3, .len [7])]))]) =
      some ⟨4, some ⟨"A", [], [7], "", []⟩, none⟩ ∧
    into mergeStr "" (render [(1, .len [255])]) = none := by decide +kernel

/-- A response with an unknown field 7 is read without it; a response whose head is text is not read. -/
example : into mergeResponse noResponse (render [(7, .num 1), (2, .num 300), (9, .len [1, 2])]) = some ⟨[], some 300⟩ ∧
    into mergeResponse noResponse (render [(2, .len [97])]) = none := by decide +kernel

/-- An append with a condition, tracking, tags and metadata, as bytes and back. -/
example : render (appendFields ⟨[⟨"A", ["x"], [7], "", [("k", "")]⟩], some ⟨some ⟨[⟨["A"], []⟩]⟩, some 200⟩, some ⟨"s", 5⟩⟩) =
      [10, 14, 10, 1, 65, 18, 1, 120, 26, 1, 7, 42, 3, 10, 1, 107, 18, 10, 10, 5, 10, 3, 10, 1, 65, 16, 200, 1, 26, 5, 10, 1, 115, 16, 5] ∧
    carry mergeAppend ⟨[], none, none⟩ appendFields
      ⟨[⟨"A", ["x"], [7], "", [("k", "")]⟩], some ⟨some ⟨[⟨["A"], []⟩]⟩, some 200⟩, some ⟨"s", 5⟩⟩ =
        .ok ⟨[⟨"A", ["x"], [7], "", [("k", "")]⟩], some ⟨some ⟨[⟨["A"], []⟩]⟩, some 200⟩, some ⟨"s", 5⟩⟩ := by
  decide +kernel

/-- Bytes that are no message are refused: a length beyond the end, a number of eleven bytes, text that is not UTF-8, field 0. -/
example : into mergeEvent noEvent [10, 5, 65] = none ∧ into mergeResponse noResponse [16, 255, 255, 255, 255, 255, 255, 255, 255, 255, 1] =
      some ⟨[], some (2 ^ 64 - 1)⟩ ∧
    into mergeResponse noResponse [16, 255, 255, 255, 255, 255, 255, 255, 255, 255, 2] = none ∧
    into mergeEvent noEvent [10, 1, 255] = none ∧ into mergeEvent noEvent [0, 1] = none := by decide +kernel

/-! ## Reading through the limit -/

/-- What a run of events takes in a message. -/
def eventsSize (evs : List SeqEvent) : Nat := (evs.map fun e => framed (seqSize (seqToP e))).sum

theorem digits_le {n : Nat} (h : n < 2 ^ 64) : digits n ≤ 10 := by
  simp only [digits]
  by_cases h0 : n = 0
  · subst h0; decide
  · have := (Nat.log2_lt h0).mpr h
    omega

theorem responseSize_message (r : Response) :
    responseSize (onWire r) = eventsSize r.events + optSize (fun n => 1 + digits n) r.head := by
  simp only [responseSize, onWire, eventsSize, List.map_map]
  rfl

theorem mem_read {log : Log} {q : Query} {start : Option Nat} {b : Bool} {limit : Option Nat} {e : SeqEvent}
    (h : e ∈ Spec.read log q start b limit) : e ∈ sequenced log := by
  have h1 : e ∈ if b then ((sequenced log).filter fun e => decide (InRange start b e.position) && decide (Matches q e.event)).reverse
      else (sequenced log).filter fun e => decide (InRange start b e.position) && decide (Matches q e.event) := by
    simp only [Spec.read] at h
    cases limit with
    | none => exact h
    | some n => exact List.mem_of_mem_take h
  split at h1
  · exact (List.mem_filter.mp (List.mem_reverse.mp h1)).1
  · exact (List.mem_filter.mp h1).1

theorem mem_sequenced_range {log : Log} {e : SeqEvent} (h : e ∈ sequenced log) :
    1 ≤ e.position ∧ e.position ≤ log.length ∧ ∃ r ∈ log, e.event = r.event ∧ e.tracking = r.tracking := by
  simp only [sequenced, List.mem_map] at h
  obtain ⟨⟨p, r⟩, h1, rfl⟩ := h
  obtain ⟨h2, h3⟩ := mem_numberFrom.mp h1
  obtain ⟨h4, h5⟩ := List.getElem?_eq_some_iff.mp h3
  exact ⟨h2, by simp only [toSeq]; omega, r, h5 ▸ List.getElem_mem _, rfl, rfl⟩

section Stream

variable {δ σ υ ι : Type} {B : Backend δ σ υ ι} {valid : Record → Prop}

theorem mem_oks {ms : List (Except Err Response)} {r : Response} (h : r ∈ oks ms) : .ok r ∈ ms := by
  simp only [oks, List.mem_filterMap] at h
  obtain ⟨m, hm, hmr⟩ := h
  cases m with
  | error e => simp at hmr
  | ok r' => simp at hmr; subst hmr; exact hm

theorem delivered_append (a b : List (Except Err Response)) :
    Server.delivered (a ++ b) = Server.delivered a ++ Server.delivered b := by
  simp [Server.delivered]

/-- Every message of an uninterrupted Read call: its events are a run of the result, as many as one message takes. -/
theorem message_facts {env : Env} (he : EnvOk env) (L : Lawful B env.H valid) {dbs : Nat → δ} {log0 : Log}
    (R : Rounds L dbs log0) (hm : ∀ r ∈ log0, ∀ t, r.tracking = some t → t.position < 2 ^ 64) (query : Option Query)
    (start : Option Nat) (backwards : Bool) (limit batchSize : Option Nat) (fuel : Nat) (r : Response)
    (hr : .ok r ∈ (readCall B env query start (some backwards) limit batchSize dbs (fun _ => false) (fun _ => Cancel.never) fuel).1) :
    MessageOk r ∧ r.events <:+: Spec.read log0 (query.getD ⟨[]⟩) start backwards limit ∧
      r.events.length ≤ messageSize batchSize := by
  have hd := (C33_stream_is_one_read he L R query start (some backwards) limit batchSize (fun _ => false)
    (fun _ => Cancel.never) fuel).1
  obtain ⟨pre, post, hsplit⟩ := List.append_of_mem hr
  have hsz := (C33_message_sizes he L R query start (some backwards) limit batchSize (fun _ => false)
    (fun _ => Cancel.never) fuel pre r post hsplit).1
  obtain ⟨r', hr', hh⟩ := C33_heads he L R query start (some backwards) limit batchSize (fun _ => false)
    (fun _ => Cancel.never) fuel _ hr
  cases hr'
  simp only [Option.getD_some] at hd
  have hinf : r.events <:+: Spec.read log0 (query.getD ⟨[]⟩) start backwards limit := by
    rw [hsplit, delivered_append] at hd
    have h2 : Server.delivered (.ok r :: post) = r.events ++ Server.delivered post := by simp [Server.delivered]
    rw [h2] at hd
    obtain ⟨rest, hrest⟩ := hd
    exact ⟨Server.delivered pre, Server.delivered post ++ rest, by rw [← hrest]; simp [List.append_assoc]⟩
  have hlen : log0.length < 2 ^ 64 := by
    have h1 := (R.grow 0).length_le
    have h2 := R.small 0
    simp only [Server.u64Max] at h2
    omega
  have hev : ∀ e ∈ r.events, e ∈ sequenced log0 := fun e hx => mem_read (hinf.subset hx)
  refine ⟨⟨fun e hx => by have := (mem_sequenced_range (hev e hx)).2.1; omega, ?_, ?_⟩, hinf, hsz⟩
  · intro e hx t ht
    obtain ⟨_, _, x, hx1, _, hx2⟩ := mem_sequenced_range (hev e hx)
    exact hm x hx1 t (by rw [← hx2]; exact ht)
  · intro n hn
    rw [hh] at hn
    split at hn
    · simp only [Option.map_eq_some_iff] at hn
      obtain ⟨e, h1, rfl⟩ := hn
      have := (mem_sequenced_range (hev e (List.mem_of_getLast? h1))).2.1
      omega
    · split at hn
      · cases hn
      · cases hn; exact hlen

/-- C66, as far as it holds: if no run of as many selected events as one message may carry takes more than 4 MiB (less 11
bytes for the head), a client iterating over a Read call through the network, async or sync, gets exactly the result. -/
theorem C66_readable_partial {env : Env} (he : EnvOk env) (L : Lawful B env.H valid) {dbs : Nat → δ} {log0 : Log}
    (R : Rounds L dbs log0) (hm : ∀ r ∈ log0, ∀ t, r.tracking = some t → t.position < 2 ^ 64) (query : Option Query)
    (start : Option Nat) (backwards : Bool) (limit batchSize : Option Nat) (fuel : Nat) (hf : log0.length < fuel)
    (hfit : ∀ evs, evs <:+: Spec.read log0 (query.getD ⟨[]⟩) start backwards limit → evs.length ≤ messageSize batchSize →
      eventsSize evs + 11 ≤ atMost) :
    let ms := oks (readCall B env query start (some backwards) limit batchSize dbs (fun _ => false)
      (fun _ => Cancel.never) fuel).1
    let want := (Spec.read log0 (query.getD ⟨[]⟩) start backwards limit)
    (runOps asyncOp (AsyncResp.new (transport (wire ms none))) (List.replicate (want.length + 1) .next)).1 =
      want.map (fun e => .item (some (.ok e))) ++ [.item none] ∧
    (runOps syncOp (SyncResp.new (transport (wire ms none))) (List.replicate (want.length + 1) .next)).1 =
      want.map (fun e => .item (some (.ok e))) ++ [.item none] := by
  intro ms want
  have facts : ∀ r ∈ ms, _ := fun r hr =>
    message_facts he L R hm query start backwards limit batchSize fuel r (mem_oks hr)
  have := (C66_stream ms none fun r hr => (facts r hr).1).1 (by
    intro r hr
    obtain ⟨h1, h2, h3⟩ := facts r hr
    have := hfit _ h2 h3
    simp only [Fits, responseSize_message]
    have hh : optSize (fun n => 1 + digits n) r.head ≤ 11 := by
      cases hx : r.head with
      | none => simp [optSize]
      | some n => have := digits_le (h1.head n hx); simp only [optSize, Option.map_some, Option.getD_some]; omega
    omega)
  rw [this]
  exact C39_end_to_end he L R query start backwards limit batchSize fuel hf

theorem data_le_framed (e : SeqEvent) : e.event.data.length < framed (seqSize (seqToP e)) := by
  have h1 : e.event.data.length ≤ eventSize (eventToP e.event) := by
    by_cases h : e.event.data = []
    · simp [h]
    · have h' : ¬ (eventToP e.event).data = [] := h
      have h2 : (eventToP e.event).data.length = e.event.data.length := rfl
      simp only [eventSize, if_neg h', framed, h2]; omega
  have h2 : eventSize (eventToP e.event) ≤ seqSize (seqToP e) := by
    simp only [seqSize, seqToP, optSize, Option.map_some, Option.getD_some, framed]; omega
  simp only [framed]
  omega

theorem eventsSize_ge {evs : List SeqEvent} {d : Nat} (h : ∀ e ∈ evs, d ≤ e.event.data.length) :
    evs.length * (d + 1) ≤ eventsSize evs := by
  induction evs with
  | nil => simp
  | cons e evs ih =>
    have h1 := h e (by simp)
    have h2 := data_le_framed e
    have h3 := ih fun x hx => h x (by simp [hx])
    simp only [eventsSize, List.map_cons, List.sum_cons, List.length_cons] at *
    rw [Nat.succ_mul]
    omega

/-- A client whose first message is too big gets an error and nothing else. -/
theorem first_too_big (r : Response) (rs : List Response) (fail : Option Status) (ho : ∀ x ∈ r :: rs, MessageOk x)
    (hb : ¬ Fits r) : ∃ e, TooBig e ∧
      (runOps asyncOp (AsyncResp.new (transport (wire (r :: rs) fail))) [.next, .next]).1 = [.item (some (.error e)), .item none] ∧
      (runOps syncOp (SyncResp.new (transport (wire (r :: rs) fail))) [.next, .next]).1 = [.item (some (.error e)), .item none] := by
  obtain ⟨s, h1, h2⟩ := (C66_stream (r :: rs) fail ho).2 [] r rs rfl (by simp) hb
  rw [h1]
  obtain ⟨i1, i2⟩ := C39_iterate [] (some s)
  exact ⟨_, h2, i1, i2 trivial⟩

/-- C66: what happens otherwise.  If at least as many events are selected as one message carries, and that many times the
least of their data is 4 MiB or more, the client gets an error at once and not one of the events. -/
theorem C66_too_big {env : Env} (he : EnvOk env) (L : Lawful B env.H valid) {dbs : Nat → δ} {log0 : Log}
    (R : Rounds L dbs log0) (hm : ∀ r ∈ log0, ∀ t, r.tracking = some t → t.position < 2 ^ 64) (query : Option Query)
    (start : Option Nat) (backwards : Bool) (limit batchSize : Option Nat) (fuel : Nat) (hf : log0.length < fuel) (d : Nat)
    (hn : messageSize batchSize ≤ (Spec.read log0 (query.getD ⟨[]⟩) start backwards limit).length)
    (hd : ∀ e ∈ Spec.read log0 (query.getD ⟨[]⟩) start backwards limit, d ≤ e.event.data.length)
    (hbig : atMost ≤ messageSize batchSize * d) :
    let ms := oks (readCall B env query start (some backwards) limit batchSize dbs (fun _ => false)
      (fun _ => Cancel.never) fuel).1
    ∃ e, TooBig e ∧
      (runOps asyncOp (AsyncResp.new (transport (wire ms none))) [.next, .next]).1 = [.item (some (.error e)), .item none] ∧
      (runOps syncOp (SyncResp.new (transport (wire ms none))) [.next, .next]).1 = [.item (some (.error e)), .item none] := by
  intro ms
  have hpos : 0 < messageSize batchSize := by
    rcases Nat.eq_zero_or_pos (messageSize batchSize) with h | h
    · rw [h] at hbig; simp [atMost] at hbig
    · exact h
  have hl : limit ≠ some 0 := by
    rintro rfl
    simp [Spec.read, applyLimit] at hn
    omega
  have hne := C33_some_message he L R query start (some backwards) limit batchSize (fun _ => false) (fun _ => Cancel.never)
    fuel hl (fun _ => rfl) (fun _ _ => rfl) hf
  have hdel := ((C33_stream_is_one_read he L R query start (some backwards) limit batchSize (fun _ => false)
    (fun _ => Cancel.never) fuel).2 (fun _ => rfl) (fun _ _ => rfl) hf).2
  have hheads := C33_heads he L R query start (some backwards) limit batchSize (fun _ => false) (fun _ => Cancel.never) fuel
  have hsizes := C33_message_sizes he L R query start (some backwards) limit batchSize (fun _ => false)
    (fun _ => Cancel.never) fuel
  have facts : ∀ r ∈ ms, _ := fun r hr =>
    message_facts he L R hm query start backwards limit batchSize fuel r (mem_oks hr)
  simp only [ms] at facts ⊢
  generalize (readCall B env query start (some backwards) limit batchSize dbs (fun _ => false)
    (fun _ => Cancel.never) fuel).1 = out at *
  simp only [Option.getD_some] at hdel
  cases out with
  | nil => exact absurd rfl hne
  | cons m post =>
    obtain ⟨r, rfl, _⟩ := hheads m (by simp)
    have ho : oks (.ok r :: post) = r :: oks post := by simp [oks]
    rw [ho] at facts ⊢
    refine first_too_big r _ none (fun x hx => (facts x hx).1) ?_
    obtain ⟨_, hinf, _⟩ := facts r (by simp)
    have hlen : messageSize batchSize ≤ r.events.length := by
      by_cases hp : post = []
      · subst hp
        have : Server.delivered [.ok r] = r.events := by simp [Server.delivered]
        rw [this] at hdel
        rw [hdel]; exact hn
      · exact Nat.le_of_eq ((hsizes [] r post rfl).2 hp).symm
    have hge := eventsSize_ge fun e hx => hd e (hinf.subset hx)
    simp only [Fits, responseSize_message]
    have h1 : messageSize batchSize * (d + 1) ≤ r.events.length * (d + 1) := Nat.mul_le_mul_right _ hlen
    rw [Nat.mul_succ] at h1
    omega

end Stream

/-! ## A log that cannot be read, and an event that cannot be read -/

/-- A log of `n` records like `r`, which has no tags, in memory. -/
def sameLog (n : Nat) (r : Record) : MemDb := ⟨n + 1, List.replicate n r, [], []⟩

def sameRounds (n : Nat) (r : Record) (hr : r.event.tags = []) (hn : n < Server.u64Max) :
    Rounds (memLawful exEnv.H (fun _ => true)) (fun _ => sameLog n r) (List.replicate n r) where
  ss _ := ⟨List.replicate n r, fun _ => none⟩
  rep _ := by
    refine ⟨by simp [sameLog, Abs.of], rfl, ?_, fun _ => rfl⟩
    intro h p
    constructor
    · intro hx; simp [sameLog] at hx
    · intro hm
      obtain ⟨x, hp, t, ht, _⟩ := mem_idxOf.mp hm
      obtain ⟨_, h2⟩ := mem_numberFrom.mp hp
      have : x = r := List.eq_of_mem_replicate (List.mem_of_getElem? h2)
      rw [this, hr] at ht
      simp at ht
  first := rfl
  grow _ := List.prefix_refl _
  small _ := by simpa using hn

theorem read_all (log : Log) : Spec.read log ⟨[]⟩ none false none = sequenced log := by
  simp only [Spec.read, applyLimit, Bool.false_eq_true, if_false]
  rw [List.filter_eq_self]
  intro e _
  have h1 : InRange none false e.position := trivial
  have h2 : Matches ⟨[]⟩ e.event := Or.inl rfl
  simp only [h1, h2, decide_true, Bool.and_self]

/-- An event of type "E" with `n` bytes of data. -/
def bulky (n : Nat) : Event := ⟨"E", List.replicate n 0, [], none, []⟩

theorem bulky_size {n : Nat} (h : 0 < n) : eventSize (eventToP (bulky n)) = 3 + framed n := by
  have h1 : textSize "E" = 3 := by decide
  have h2 : textSize "" = 0 := by decide
  have h3 : (List.replicate n (0 : UInt8)) ≠ [] := by
    intro hc; have := congrArg List.length hc; simp at this; omega
  simp only [eventSize, eventToP, bulky, Option.map_none, Option.getD_none, h1, h2, List.map_nil, List.sum_nil, if_neg h3,
    List.length_replicate]
  omega

theorem digits_band {n : Nat} (k : Nat) (h1 : 2 ^ (7 * k) ≤ n) (h2 : n < 2 ^ (7 * k + 7)) : digits n = k + 1 := by
  have h0 : n ≠ 0 := by have := Nat.two_pow_pos (7 * k); omega
  have h3 : 7 * k ≤ n.log2 := (Nat.le_log2 h0).mpr h1
  have h4 := (Nat.log2_lt h0).mpr h2
  simp only [digits]
  omega

/-- C66 without the condition fails: 1024 events of 4096 bytes, each of which the server takes, fill a database that cannot be
read with the default batch size; the client gets an error and no event. -/
theorem C66_readable_false :
    callSize (.append (appendBody ⟨[bulky 4096], none, none⟩)) ≤ atMost ∧
    (Spec.read (List.replicate 1024 ⟨bulky 4096, none⟩) ⟨[]⟩ none false none).length = 1024 ∧
    ∃ e, TooBig e ∧
      let ms := oks (readCall (memBackend fun _ => true) exEnv none none (some false) none none
        (fun _ => sameLog 1024 ⟨bulky 4096, none⟩) (fun _ => false) (fun _ => Cancel.never) 1025).1
      (runOps asyncOp (AsyncResp.new (transport (wire ms none))) [.next, .next]).1 = [.item (some (.error e)), .item none] ∧
      (runOps syncOp (SyncResp.new (transport (wire ms none))) [.next, .next]).1 = [.item (some (.error e)), .item none] := by
  have hlen : (Spec.read (List.replicate 1024 ⟨bulky 4096, none⟩) ⟨[]⟩ none false none).length = 1024 := by
    rw [read_all, sequenced, List.length_map, numberFrom_length, List.length_replicate]
  refine ⟨?_, hlen, ?_⟩
  · have h1 : eventSize (eventToP (bulky 4096)) = 4102 := by
      rw [bulky_size (by omega)]; decide +kernel
    have h2 : framed 4102 = 4105 := by decide +kernel
    simp only [callSize, appendSize, appendBody, optSize, Option.map_none, Option.getD_none, List.map_cons, List.map_nil,
      List.sum_cons, List.sum_nil, h1, h2, atMost]
    omega
  · refine C66_too_big exEnvOk (memLawful exEnv.H (fun _ => true)) (sameRounds 1024 ⟨bulky 4096, none⟩ rfl (by simp [Server.u64Max])) ?_
      none none false none none 1025 (by rw [List.length_replicate]; omega) 4096 ?_ ?_ ?_
    · intro r hr t ht
      rw [List.eq_of_mem_replicate hr] at ht
      cases ht
    · simp only [Option.getD_none]
      rw [hlen]
      exact Nat.le_refl _
    · intro e hx
      obtain ⟨_, _, r, h1, h2, _⟩ := mem_sequenced_range (mem_read hx)
      rw [h2, List.eq_of_mem_replicate h1]
      simp only [bulky, List.length_replicate]; omega
    · simp [atMost, messageSize]

theorem sum_ge_mem {l : List Nat} {n : Nat} (h : n ∈ l) : n ≤ l.sum := by
  induction l with
  | nil => simp at h
  | cons a l ih =>
    rw [List.sum_cons]
    rcases List.mem_cons.mp h with rfl | h
    · omega
    · have := ih h; omega

/-- An event between these sizes is taken by the server but fits into no answer. -/
def Unreadable (e : Event) : Prop := 4194293 ≤ eventSize (eventToP e) ∧ eventSize (eventToP e) ≤ 4194299

theorem unreadable_message {e : Event} (h : Unreadable e) {r : Response} {x : SeqEvent} (hx : x ∈ r.events)
    (hp : x.position ≠ 0) (hxe : x.event = e) : ¬ Fits r := by
  have h1 : eventsSize r.events ≥ framed (seqSize (seqToP x)) := by
    simp only [eventsSize]
    exact sum_ge_mem (List.mem_map.mpr ⟨x, hx, rfl⟩)
  have hd : digits (eventSize (eventToP e)) = 4 := by
    obtain ⟨h2, h3⟩ := h
    exact digits_band 3 (by omega) (by omega)
  have hdp : 1 ≤ digits x.position := by simp only [digits]; omega
  have h2 : 4194293 + 7 ≤ seqSize (seqToP x) := by
    obtain ⟨h2, h3⟩ := h
    simp only [seqSize, seqToP, if_neg hp, hxe, optSize, Option.map_some, Option.getD_some, framed, hd]
    omega
  have h3 : 4 ≤ digits (seqSize (seqToP x)) := by
    have : 21 ≤ (seqSize (seqToP x)).log2 := (Nat.le_log2 (by omega)).mpr (by omega)
    simp only [digits]
    omega
  simp only [Fits, responseSize_message, atMost]
  simp only [framed] at h1
  omega

/-- C66 fails for a single event, with every batch size: the request to append it has at most 4 MiB and reaches the server,
but whatever messages the server sends, in which positions are never 0, no client ever gets it. -/
theorem C66_event_false (e : Event) (h : Unreadable e) :
    (∀ {α : Type} (c : ClientConfig) (serverKey : Option String) (serve : Action → Except Err α),
      roundTripWire c serverKey serve (.append ⟨[e], none, none⟩) = roundTrip c serverKey serve (.append ⟨[e], none, none⟩)) ∧
    (∀ (rs : List Response) (fail : Option Status), (∀ r ∈ rs, MessageOk r ∧ ∀ x ∈ r.events, x.position ≠ 0) → ∀ (ops : List Op),
      ∀ o ∈ (runOps asyncOp (AsyncResp.new (transport (wire rs fail))) ops).1, ∀ x, .ok x ∈ got o → x.event ≠ e) := by
  constructor
  · intro α c serverKey serve
    refine (C66_round_trip c serverKey serve (.append ⟨[e], none, none⟩) ?_).1 ?_
    · exact ⟨fun c hc => by simp [appendBody] at hc, fun t ht => by simp [appendBody] at ht⟩
    · obtain ⟨h2, h3⟩ := h
      have hd : digits (eventSize (eventToP e)) = 4 := digits_band 3 (by omega) (by omega)
      simp only [Ask.call, callSize, appendSize, appendBody, optSize, Option.map_none, Option.getD_none, List.map_cons, List.map_nil,
        List.sum_cons, List.sum_nil, framed, hd, atMost]
      omega
  · intro rs fail ho ops o hob x hx hxe
    have hpre : ∃ pre fail', transport (wire rs fail) = wire pre fail' ∧ ∀ r ∈ pre, r ∈ rs ∧ Fits r := by
      by_cases hall : ∀ r ∈ rs, Fits r
      · exact ⟨rs, fail, (C66_stream rs fail fun r hr => (ho r hr).1).1 hall, fun r hr => ⟨hr, hall r hr⟩⟩
      · have : ∀ l : List Response, (¬ ∀ r ∈ l, Fits r) → ∃ pre r post, l = pre ++ r :: post ∧ (∀ x ∈ pre, Fits x) ∧ ¬ Fits r := by
          intro l
          induction l with
          | nil => intro hc; exact absurd (by simp) hc
          | cons a l ih =>
            intro hc
            by_cases ha : Fits a
            · obtain ⟨pre, r, post, rfl, h2, h3⟩ := ih (by
                intro hl
                exact hc fun r hr => (List.mem_cons.mp hr).elim (fun h => h ▸ ha) (hl r))
              exact ⟨a :: pre, r, post, rfl, fun x hx => (List.mem_cons.mp hx).elim (fun h => h ▸ ha) (h2 x), h3⟩
            · exact ⟨[], a, l, rfl, by simp, ha⟩
        obtain ⟨pre, r, post, hs, h2, h3⟩ := this rs hall
        obtain ⟨s, h4, _⟩ := (C66_stream rs fail fun r hr => (ho r hr).1).2 pre r post hs h2 h3
        exact ⟨pre, some s, h4, fun y hy => ⟨by rw [hs]; simp [hy], h2 y hy⟩⟩
    obtain ⟨pre, fail', h1, h2⟩ := hpre
    rw [h1] at hob
    obtain ⟨rest, h3, _⟩ := C39_async pre fail' ops
    have hmem : .ok x ∈ wanted pre fail' := by
      rw [h3]
      exact List.mem_append_left _ (List.mem_flatMap.mpr ⟨o, hob, hx⟩)
    simp only [wanted, List.mem_append, List.mem_map, List.mem_flatMap] at hmem
    rcases hmem with ⟨y, ⟨r, hr, hy⟩, hxy⟩ | hmem
    · cases hxy
      obtain ⟨hr1, hr2⟩ := h2 r hr
      exact unreadable_message h hy ((ho r hr1).2 x hy) hxe hr2
    · cases fail' <;> simp at hmem

/-- The condition of `C66_readable_partial` is met by the small log. -/
example :
    let ms := oks (readCall (memBackend fun _ => true) exEnv none none (some false) none (some 1) exGrow (fun _ => false)
      (fun _ => Cancel.never) 3).1
    (runOps asyncOp (AsyncResp.new (transport (wire ms none))) (List.replicate 3 .next)).1 =
      (sequenced (exLog.take 2)).map (fun e => .item (some (.ok e))) ++ [.item none] := by
  have h := (C66_readable_partial exEnvOk _ exRounds (by
      intro r hr t ht
      simp only [exLog, List.take_succ_cons, List.take_zero, List.mem_cons, List.not_mem_nil, or_false] at hr
      rcases hr with rfl | rfl <;> cases ht) none none false none (some 1) 3 (by decide) (by
      intro evs h1 _
      rw [Option.getD_none, read_all] at h1
      have h2 : eventsSize evs ≤ eventsSize (sequenced (exLog.take 2)) := by
        obtain ⟨a, b, h⟩ := h1
        rw [← h]
        simp only [eventsSize, List.map_append, List.sum_append]
        omega
      have h3 : eventsSize (sequenced (exLog.take 2)) ≤ 100 := by decide +kernel
      simp only [atMost]
      omega)).1
  rw [Option.getD_none, read_all] at h
  exact h

/-- There are such events: 4194291 bytes of data. -/
example : Unreadable (bulky 4194291) := by
  have : eventSize (eventToP (bulky 4194291)) = 4194299 := by
    rw [bulky_size (by omega), framed, digits_band 3 (by omega) (by omega)]
  simp only [Unreadable, this]
  omega

end Uma.Props
