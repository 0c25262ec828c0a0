import Verif.Net.Connect

/-! # C62, C63: connections and paths -/

namespace Uma.Props
open Uma.Net

/-! ## C62 -/

theorem startsWith_iff (u p : Text) : startsWith u p = true ↔ ∃ t, u = p ++ t := by
  simp only [startsWith, List.isPrefixOf_iff_prefix]
  constructor
  · rintro ⟨t, h⟩; exact ⟨t, h.symm⟩
  · rintro ⟨t, h⟩; exact ⟨t, h.symm⟩

theorem newEndpoint_https (url : Text) (tls : Option TlsOptions) :
    startsWith (newEndpoint url tls).url https = (startsWith url https || startsWith url grpcs) := by
  have h : ∀ u, startsWith (https ++ u) https = true := fun u => (startsWith_iff _ _).mpr ⟨u, rfl⟩
  have key : startsWith (if startsWith url grpcs = true then https ++ url.drop grpcs.length else url) https =
      (startsWith url https || startsWith url grpcs) := by
    by_cases hg : startsWith url grpcs = true
    · rw [if_pos hg, h, hg, Bool.or_true]
    · rw [if_neg hg]; simp only [Bool.not_eq_true] at hg; rw [hg, Bool.or_false]
  unfold newEndpoint
  cases tls with
  | some o => exact key
  | none =>
    simp only
    split
    · exact key
    · exact key

theorem dial_encrypted {reaches : Bool} {e : Endpoint} {enc : Bool} (h : dial reaches e = .ok enc) :
    enc = startsWith e.url https := by
  unfold dial at h
  split at h
  · rename_i hs
    rw [hs]
    split at h
    · cases h
    · split at h <;> cases h; rfl
  · rename_i hs
    simp only [Bool.not_eq_true] at hs
    rw [hs]
    split at h <;> cases h; rfl

/-- C62: what a client takes for an encrypted connection is one: its note agrees with the channel, for every URL and all TLS
options. -/
theorem C62_note_is_true (url : Text) (tls : Option TlsOptions) (bs : Option Nat) (key : Option String) (reaches : Bool)
    (c : Connected) (h : connectWith url tls bs key reaches = .ok c) : c.config.tls = c.encrypted ∧ c.config.apiKey = key ∧
      c.config.batchSize = bs := by
  unfold connectWith at h
  split at h
  · cases h
  · rename_i enc hd
    cases h
    refine ⟨?_, rfl, rfl⟩
    simp only
    rw [dial_encrypted hd, newEndpoint_https]

/-- C62: the API key never leaves the client unencrypted: a call that carries any credentials travels over an encrypted channel. -/
theorem C62_key_encrypted (url : Text) (tls : Option TlsOptions) (bs : Option Nat) (key : Option String) (reaches : Bool)
    (c : Connected) (h : connectWith url tls bs key reaches = .ok c) (md : Metadata) (hm : addAuth c.config = .ok md)
    (hne : md ≠ []) : c.encrypted = true := by
  rw [← (C62_note_is_true url tls bs key reaches c h).1]
  unfold addAuth at hm
  split at hm
  · cases hm; exact absurd rfl hne
  · split at hm
    · cases hm
    · rename_i ht; simpa using ht

/-- C62: `https://` and `grpcs://` are never served by an unencrypted channel. -/
theorem C62_https_encrypted (rest : Text) (tls : Option TlsOptions) (bs : Option Nat) (key : Option String) (reaches : Bool)
    (url : Text) (hu : url = "https://".toList ++ rest ∨ url = "grpcs://".toList ++ rest) (c : Connected)
    (h : connectWith url tls bs key reaches = .ok c) : c.encrypted = true := by
  have ht := C62_note_is_true url tls bs key reaches c h
  rw [← ht.1]
  unfold connectWith at h
  split at h
  · cases h
  · cases h
    simp only [Bool.or_eq_true, startsWith_iff]
    rcases hu with rfl | rfl
    · exact Or.inl ⟨rest, rfl⟩
    · exact Or.inr ⟨rest, rfl⟩

/-- C62: other URLs are served by an unencrypted channel, whatever the options. -/
theorem C62_http_plain (url : Text) (tls : Option TlsOptions) (bs : Option Nat) (key : Option String) (reaches : Bool)
    (hs : url.take 8 ≠ "https://".toList) (hg : url.take 8 ≠ "grpcs://".toList) (c : Connected)
    (h : connectWith url tls bs key reaches = .ok c) : c.encrypted = false := by
  have ht := C62_note_is_true url tls bs key reaches c h
  rw [← ht.1]
  unfold connectWith at h
  split at h
  · cases h
  · cases h
    rw [Bool.or_eq_false_iff]
    constructor <;> rw [Bool.eq_false_iff] <;> intro hp <;> rw [startsWith_iff] at hp <;> obtain ⟨rest, rfl⟩ := hp
    · exact hs rfl
    · exact hg rfl

/-- C62: the address a client dials: `grpcs://` is replaced by `https://`, the rest stays. -/
theorem C62_address (rest : Text) (tls : Option TlsOptions) :
    (newEndpoint ("grpcs://".toList ++ rest) tls).url = "https://".toList ++ rest ∧
    ∀ url, url.take 8 ≠ "grpcs://".toList → (newEndpoint url tls).url = url := by
  constructor
  · unfold newEndpoint
    have : startsWith ("grpcs://".toList ++ rest) grpcs = true := (startsWith_iff _ _).mpr ⟨rest, rfl⟩
    rw [if_pos this]
    cases tls with
    | some o => rfl
    | none => simp only; split <;> rfl
  · intro url hg
    have : ¬ startsWith url grpcs = true := by
      intro hp
      obtain ⟨rest, rfl⟩ := (startsWith_iff _ _).mp hp
      exact hg rfl
    unfold newEndpoint
    rw [if_neg this]
    cases tls with
    | some o => rfl
    | none => simp only; split <;> rfl

/-- C62: the TLS options the caller gave, and no others, are used; `connect` passes on the certificate. -/
theorem C62_options (url : Text) (o : TlsOptions) : (newEndpoint url (some o)).tls = some o := rfl

theorem retry_spec {α : Type} (attempt : Nat → Except Err α) : ∀ left n, 0 < left →
    (∃ k c, k < left ∧ attempt (n + k) = .ok c ∧ (∀ j < k, ∃ e, attempt (n + j) = .error e) ∧
      retry attempt left n = (.ok c, n + k + 1)) ∨
    ((∀ j < left, ∃ e, attempt (n + j) = .error e) ∧ ∃ e, attempt (n + left - 1) = .error e ∧
      retry attempt left n = (.error e, n + left)) := by
  intro left
  induction left with
  | zero => intro n h; omega
  | succ left ih =>
    intro n _
    cases ha : attempt n with
    | ok c => exact Or.inl ⟨0, c, by omega, by simpa using ha, by omega, by simp [retry, ha]⟩
    | error e =>
      by_cases hl : left = 0
      · subst hl
        refine Or.inr ⟨?_, e, by simpa using ha, by simp [retry, ha]⟩
        intro j hj
        have : j = 0 := by omega
        subst this
        exact ⟨e, ha⟩
      · have hr : retry attempt (left + 1) n = retry attempt left (n + 1) := by simp [retry, ha, hl]
        rcases ih (n + 1) (by omega) with ⟨k, c, h1, h2, h3, h4⟩ | ⟨h1, e', h2, h3⟩
        · refine Or.inl ⟨k + 1, c, by omega, by rw [← h2]; congr 1; omega, ?_, by rw [hr, h4]; congr 1; omega⟩
          intro j hj
          cases j with
          | zero => exact ⟨e, by simpa using ha⟩
          | succ j => obtain ⟨e', he'⟩ := h3 j (by omega); exact ⟨e', by rw [← he']; congr 1; omega⟩
        · refine Or.inr ⟨?_, e', by rw [← h2]; congr 1; omega, by rw [hr, h3]; congr 1; omega⟩
          intro j hj
          cases j with
          | zero => exact ⟨e, by simpa using ha⟩
          | succ j => obtain ⟨e', he'⟩ := h1 j (by omega); exact ⟨e', by rw [← he']; congr 1; omega⟩

/-- C62: `connect` is as good as the first attempt that succeeds among 50 and makes no attempt after it; it fails only after 50
failures, with the last of them. -/
theorem C62_retry (url : Text) (ca : Option (List Nat)) (bs : Option Nat) (key : Option String) (reaches : Nat → Bool) :
    let attempt := fun n => connectWith url (some ⟨none, ca⟩) bs key (reaches n)
    (∃ k c, k < 50 ∧ attempt k = .ok c ∧ (∀ j < k, ∃ e, attempt j = .error e) ∧ connect url ca bs key reaches = (.ok c, k + 1)) ∨
    ((∀ j < 50, ∃ e, attempt j = .error e) ∧ ∃ e, attempt 49 = .error e ∧ connect url ca bs key reaches = (.error e, 50)) := by
  have := retry_spec (fun n => connectWith url (some ⟨none, ca⟩) bs key (reaches n)) maxAttempts 0 (by decide)
  simpa [maxAttempts, connect] using this

/-- C62: through `connect`, any server that is reached with any URL is connected to. -/
theorem C62_connects (url : Text) (ca : Option (List Nat)) (bs : Option Nat) (key : Option String) :
    ∃ c, connectWith url (some ⟨none, ca⟩) bs key true = .ok c := by
  unfold connectWith dial
  split
  · rename_i e h
    split at h
    · split at h
      · rename_i hn; simp [newEndpoint] at hn
      · simp at h
    · simp at h
  · exact ⟨_, rfl⟩

/-- C62 as the comment says ("Accept grpcs:// as an alias for https://") is false of `connect_with_tls_options` without options:
`https://` works, `grpcs://` fails however often it is tried. -/
theorem C62_grpcs_alias_false : ¬ ∀ (rest : Text) (tls : Option TlsOptions) (bs : Option Nat) (key : Option String) (reaches : Bool),
    (∃ c, connectWith (https ++ rest) tls bs key reaches = .ok c) → ∃ c, connectWith (grpcs ++ rest) tls bs key reaches = .ok c := by
  intro h
  obtain ⟨c, hc⟩ := h [] none none none true ⟨_, rfl⟩
  exact nomatch hc

/-- C62, with options the alias holds. -/
theorem C62_grpcs_alias_partial (rest : Text) (o : TlsOptions) (bs : Option Nat) (key : Option String) (reaches : Bool) :
    connectWith (grpcs ++ rest) (some o) bs key reaches = connectWith (https ++ rest) (some o) bs key reaches := by
  have h1 : startsWith (grpcs ++ rest) grpcs = true := (startsWith_iff _ _).mpr ⟨rest, rfl⟩
  have h2 : startsWith (https ++ rest) https = true := (startsWith_iff _ _).mpr ⟨rest, rfl⟩
  have h3 : startsWith (https ++ rest) grpcs = false := rfl
  have he : newEndpoint (grpcs ++ rest) (some o) = newEndpoint (https ++ rest) (some o) := by
    unfold newEndpoint
    simp only [h1, if_true, h3, List.drop_left, Bool.false_eq_true, if_false]
  unfold connectWith
  rw [he, h1, h2]
  simp

/-- C62: a server is started with TLS if the command line names a certificate or a key, and only then; both must be named and
readable. -/
theorem C62_server {α : Type} (readFile : String → Except String α) (a : Args) :
    (∀ tls k m, serverOf readFile a = .ok (tls, k, m) → k = a.apiKey ∧
      (tls = none ↔ a.cert = none ∧ a.key = none) ∧
      (∀ c p, tls = some (c, p) → ∃ cf kf, a.cert = some cf ∧ a.key = some kf ∧ readFile cf = .ok c ∧ readFile kf = .ok p)) := by
  intro tls k m h
  unfold serverOf at h
  split at h
  · cases h
  · rename_i hs
    split at h
    · cases h
    · rename_i t ht
      cases h
      refine ⟨rfl, ?_⟩
      rcases hc : a.cert with _ | cf <;> rcases hk : a.key with _ | kf <;> rw [hc, hk] at ht
      · cases ht; simp
      · cases ht
      · cases ht
      · simp only [serverTls] at ht
        split at ht
        · cases ht
        · rename_i c hc'
          split at ht
          · cases ht
          · rename_i p hp
            cases ht
            refine ⟨by simp, ?_⟩
            intro c' p' he
            cases he
            exact ⟨cf, kf, rfl, rfl, hc', hp⟩

/-- C62, read method: the named one is used, upper or lower case; anything else is taken for `mmap` without a word, also a
misspelled `fileio`, the default. -/
theorem C62_read_method {α : Type} (readFile : String → Except String α) (a : Args) (tls : Option (α × α)) (k : Option String)
    (m : ReadMethod) (h : serverOf readFile a = .ok (tls, k, m)) : m = .fileIo ↔ a.readMethod.toLower = "fileio" := by
  unfold serverOf at h
  split at h
  · cases h
  · split at h
    · cases h
    · cases h
      unfold readMethod
      split
      · simp_all
      · split <;> simp_all

example : (match serverOf (α := String) (fun f => .ok f) ⟨some "c.pem", some "k.pem", some "s", "FileIO"⟩ with
    | .ok r => r == (some ("c.pem", "k.pem"), some "s", .fileIo) | .error _ => false) = true := by decide +kernel

example : (match serverOf (α := String) (fun f => .ok f) ⟨some "c.pem", none, some "s", "fileio"⟩ with
    | .ok _ => true | .error _ => false) = false := by decide +kernel

/-- Three failures, then a connection; with a key and no TLS calls are refused by the client itself. -/
example : (match connect "http://db:50051".toList none none (some "k") (fun n => n == 3) with
    | (.ok c, n) => !c.encrypted && n == 4 && (match addAuth c.config with | .ok _ => false | .error _ => true)
    | _ => false) = true := by decide +kernel

/-! ## C63 -/

theorem replaceFrom_slash (p r : Text) (hr : '/' ∈ r) : ∀ (s : Text), replaceFrom p r 0 s = s ∨ '/' ∈ replaceFrom p r 0 s := by
  intro s
  induction s with
  | nil => exact Or.inl rfl
  | cons c s ih =>
    simp only [replaceFrom]
    split
    · exact Or.inr (List.mem_append_left _ hr)
    · rcases ih with h | h
      · exact Or.inl (by rw [h])
      · exact Or.inr (List.mem_cons_of_mem _ h)

theorem replaceFrom_none (p r : Text) (c : Char) (p' : Text) (hp : p = c :: p') : ∀ (s : Text), c ∉ s → replaceFrom p r 0 s = s := by
  intro s
  induction s with
  | nil => intro _; rfl
  | cons d s ih =>
    intro hn
    simp only [List.mem_cons, not_or] at hn
    have : startsWith (d :: s) p = false := by
      rw [hp]
      simp [startsWith, List.isPrefixOf, hn.1]
    rw [replaceFrom, this, ih hn.2]
    simp

theorem replaceFrom_skip (p r : Text) : ∀ (t s : Text), replaceFrom p r t.length (t ++ s) = replaceFrom p r 0 s := by
  intro t
  induction t with
  | nil => intro s; rfl
  | cons c t ih => intro s; simp only [List.length_cons, List.cons_append, replaceFrom]; exact ih s

theorem replaceAll_prefix (p r s : Text) (hp : p ≠ []) : replaceAll p r (p ++ s) = r ++ replaceFrom p r 0 s := by
  cases p with
  | nil => exact absurd rfl hp
  | cons c p =>
    have : startsWith (c :: p ++ s) (c :: p) = true := (startsWith_iff _ _).mpr ⟨s, rfl⟩
    rw [replaceAll, List.cons_append, replaceFrom]
    rw [List.cons_append] at this
    rw [if_pos this]
    simp only [List.length_cons, Nat.add_sub_cancel]
    rw [replaceFrom_skip]

theorem name_slash (m : Method) : '/' ∉ m.name := by cases m <;> decide

theorem route_iff (path : Text) (m : Method) : route path = some m ↔ path = service ++ m.name := by
  unfold route
  constructor
  · intro h
    have := List.find?_some h
    simpa using this
  · rintro rfl
    cases m <;> decide

theorem routes (path : Text) (m : Method) :
    route (rewritePath true path) = some m ↔ path = service ++ m.name ∨ path = oldService ++ m.name := by
  rw [route_iff]
  unfold rewritePath
  by_cases h : startsWith path oldService = true
  · rw [if_pos h, if_pos rfl]
    obtain ⟨t, rfl⟩ := (startsWith_iff _ _).mp h
    rw [replaceAll_prefix _ _ _ (by decide), List.append_cancel_left_eq, List.append_cancel_left_eq]
    have hs : '/' ∈ service := by decide
    constructor
    · intro ht
      rcases replaceFrom_slash oldService service hs t with hr | hr
      · exact Or.inr (by rw [← ht, hr])
      · rw [ht] at hr; exact absurd hr (name_slash m)
    · rintro (hc | rfl)
      · have := congrArg (fun l : Text => l[7]?) hc
        have h1 : (oldService ++ t)[7]? = some 'U' := rfl
        have h2 : (service ++ m.name)[7]? = some 'v' := rfl
        simp only [h1, h2] at this
        cases this
      · exact replaceFrom_none oldService service '/' _ rfl _ (name_slash m)
  · rw [if_neg h]
    constructor
    · exact Or.inl
    · rintro (hc | rfl)
      · exact hc
      · exact absurd ((startsWith_iff _ _).mpr ⟨m.name, rfl⟩) h

/-- The paths of the calls, of version 1 and before versions. -/
def pathsOf : Method → List String
  | .read => ["/umadb.v1.DCB/Read", "/umadb.UmaDBService/Read"]
  | .subscribe => ["/umadb.v1.DCB/Subscribe", "/umadb.UmaDBService/Subscribe"]
  | .append => ["/umadb.v1.DCB/Append", "/umadb.UmaDBService/Append"]
  | .head => ["/umadb.v1.DCB/Head", "/umadb.UmaDBService/Head"]
  | .tracking => ["/umadb.v1.DCB/GetTrackingInfo", "/umadb.UmaDBService/GetTrackingInfo"]

/-- C63: a request reaches a call of the service exactly if its path is the one of that call in version 1 or the one it had
before versions.  No other path reaches any call. -/
theorem C63_paths (path : Text) (m : Method) : route (rewritePath true path) = some m ↔ path ∈ (pathsOf m).map String.toList := by
  rw [routes]
  have : (pathsOf m).map String.toList = [service ++ m.name, oldService ++ m.name] := by cases m <;> decide +kernel
  rw [this]
  simp

/-- C63: a path that is not of the old form is left alone (for instance that of the health service). -/
theorem C63_others (builds : Bool) (path : Text) (h : ∀ t, path ≠ "/umadb.UmaDBService/".toList ++ t) : rewritePath builds path = path := by
  unfold rewritePath
  rw [if_neg]
  intro hc
  obtain ⟨t, ht⟩ := (startsWith_iff _ _).mp hc
  exact h t ht

example : route (rewritePath true "/umadb.UmaDBService/Append".toList) = some .append ∧
    route (rewritePath true "/umadb.v1.DCB/Head".toList) = some .head ∧
    rewritePath true "/umadb.UmaDBService/x/umadb.UmaDBService/y".toList = "/umadb.v1.DCB/x/umadb.v1.DCB/y".toList ∧
    rewritePath true "/grpc.health.v1.Health/Check".toList = "/grpc.health.v1.Health/Check".toList := by decide +kernel

end Uma.Props
