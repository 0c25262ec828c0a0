import Verif.Net.Proto

/-! Round trips of the wire representation. -/

namespace Uma.Net

theorem hexVal_hexDigit : ∀ n : Fin 16, hexVal (hexDigit n.val) = some n.val := by decide

theorem hexVal_digit {n : Nat} (h : n < 16) : hexVal (hexDigit n) = some n := hexVal_hexDigit ⟨n, h⟩

theorem unhex_hexBytes (bs : List UInt8) (cs : List Char) :
    unhex (hexBytes bs ++ cs) = (unhex cs).map (bs ++ ·) := by
  induction bs with
  | nil => simp [hexBytes]
  | cons b bs ih =>
    have hb := b.toNat_lt
    have e : hexBytes (b :: bs) ++ cs =
        hexDigit (b.toNat / 16) :: hexDigit (b.toNat % 16) :: (hexBytes bs ++ cs) := by simp [hexBytes]
    rw [e, unhex, hexVal_digit (by omega), hexVal_digit (Nat.mod_lt _ (by decide)), ih]
    cases unhex cs with
    | none => rfl
    | some l =>
      simp only [Option.map_some, List.cons_append, Option.some.injEq, List.cons.injEq, and_true]
      rw [Nat.div_add_mod]
      simp

theorem hexBytes_length (bs : List UInt8) : (hexBytes bs).length = 2 * bs.length := by
  induction bs with
  | nil => rfl
  | cons b bs ih =>
    rw [show hexBytes (b :: bs) = [hexDigit (b.toNat / 16), hexDigit (b.toNat % 16)] ++ hexBytes bs from rfl,
      List.length_append, ih]
    simp; omega

theorem hexBytes_append (a b : List UInt8) : hexBytes (a ++ b) = hexBytes a ++ hexBytes b := by simp [hexBytes]

/-- Splitting the hyphenated form. -/
theorem parse_parts (a b c d e : List Char) (ha : a.length = 8) (hb : b.length = 4) (hc : c.length = 4)
    (hd : d.length = 4) (_he : e.length = 12) :
    parseHyphenated (a ++ '-' :: (b ++ '-' :: (c ++ '-' :: (d ++ '-' :: e)))) =
      (unhex (a ++ b ++ c ++ d ++ e)).bind toUuid := by
  match a, ha with
  | [a0, a1, a2, a3, a4, a5, a6, a7], _ =>
    match b, hb with
    | [b0, b1, b2, b3], _ =>
      match c, hc with
      | [c0, c1, c2, c3], _ =>
        match d, hd with
        | [d0, d1, d2, d3], _ => simp [parseHyphenated]

theorem toUuid_toList (u : Uuid) : toUuid u.toList = some u := by
  unfold toUuid
  rw [dif_pos (by simp)]
  congr 1

theorem parse_uuidText (u : Uuid) : parseUuid (uuidText u) = some u := by
  have hl : u.toList.length = 16 := by simp
  unfold parseUuid uuidText
  simp only [String.toList_ofList]
  generalize hb : u.toList = b at hl
  have l1 : (hexBytes (b.take 4)).length = 8 := by rw [hexBytes_length]; simp [hl]
  have l2 : (hexBytes ((b.drop 4).take 2)).length = 4 := by rw [hexBytes_length]; simp [hl]
  have l3 : (hexBytes ((b.drop 6).take 2)).length = 4 := by rw [hexBytes_length]; simp [hl]
  have l4 : (hexBytes ((b.drop 8).take 2)).length = 4 := by rw [hexBytes_length]; simp [hl]
  have l5 : (hexBytes (b.drop 10)).length = 12 := by rw [hexBytes_length]; simp [hl]
  have hlen : (hexBytes (b.take 4) ++ '-' :: (hexBytes ((b.drop 4).take 2) ++ '-' :: (hexBytes ((b.drop 6).take 2) ++
    '-' :: (hexBytes ((b.drop 8).take 2) ++ '-' :: hexBytes (b.drop 10))))).length = 36 := by
    simp only [List.length_append, List.length_cons, l1, l2, l3, l4, l5]
  rw [if_neg (by rw [hlen]; decide), if_pos hlen, parse_parts _ _ _ _ _ l1 l2 l3 l4 l5]
  simp only [← hexBytes_append]
  have hall : b.take 4 ++ (b.drop 4).take 2 ++ (b.drop 6).take 2 ++ (b.drop 8).take 2 ++ b.drop 10 = b := by
    match b, hl with
    | [_, _, _, _, _, _, _, _, _, _, _, _, _, _, _, _], _ => rfl
  rw [hall]
  have := unhex_hexBytes b []
  rw [List.append_nil] at this
  rw [this]
  simp [unhex, ← hb, toUuid_toList]

theorem uuidText_ne_empty (u : Uuid) : uuidText u ≠ "" := by
  intro h
  have := parse_uuidText u
  rw [h] at this
  simp [parseUuid] at this

theorem event_roundtrip (e : Event) : eventOfP (eventToP e) = .ok e := by
  obtain ⟨ty, data, tags, uuid, md⟩ := e
  cases uuid with
  | none => simp [eventOfP, eventToP]
  | some u => simp [eventOfP, eventToP, parse_uuidText, uuidText_ne_empty]

theorem tracking_roundtrip (t : Tracking) : trackingOfP (trackingToP t) = t := rfl

theorem query_roundtrip (q : Query) : queryOfP (queryToP q) = q := by
  obtain ⟨items⟩ := q
  simp only [queryOfP, queryToP, List.map_map, Query.mk.injEq]
  rw [show itemOfP ∘ itemToP = id from rfl, List.map_id]

theorem condition_roundtrip (c : Condition) : conditionOfP (conditionToP c) = c := by
  simp [conditionOfP, conditionToP, query_roundtrip]

theorem collect_map {α β γ : Type} (f : α → Except Err β) (g : γ → α) (h : γ → β) (l : List γ)
    (hf : ∀ x, f (g x) = .ok (h x)) : collect f (l.map g) = .ok (l.map h) := by
  induction l with
  | nil => rfl
  | cons a l ih => simp [collect, hf, ih]

theorem collect_events (l : List Event) : collect eventOfP (l.map eventToP) = .ok l := by
  rw [collect_map eventOfP eventToP id l event_roundtrip, List.map_id]

theorem seq_roundtrip (e : SeqEvent) :
    seqOfP e.position (e.tracking.map trackingToP) (eventToP e.event) = .ok e := by
  simp only [seqOfP, event_roundtrip]
  obtain ⟨p, ev, t⟩ := e
  cases t <;> rfl

theorem convert_roundtrip (l : List SeqEvent) : convertSequenced (l.map seqToP) = .ok l := by
  unfold convertSequenced
  have : (l.map seqToP).filterMap (fun e => e.event.map fun ev => (e.position, e.tracking, ev)) =
      l.map fun e => (e.position, e.tracking.map trackingToP, eventToP e.event) := by
    induction l with
    | nil => rfl
    | cons a l ih => rw [List.map_cons, List.filterMap_cons, ih]; rfl
  rw [this, collect_map _ _ id l fun e => seq_roundtrip e, List.map_id]

end Uma.Net
