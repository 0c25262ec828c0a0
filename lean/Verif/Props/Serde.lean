import Verif.Core.SerdeError

/-!
# Errors survive serialization: C86
-/

namespace Uma.Props
open Uma.Core

/-- Where the kind of an error is among those with a stable name. -/
def Named (k : IoKind) : Prop := k ≠ .filesystemLoop ∧ k ≠ .inProgress ∧ k ≠ .uncategorized

instance (k : IoKind) : Decidable (Named k) := inferInstanceAs (Decidable (_ ∧ _ ∧ _))

/-- What is shown for an error. -/
def shown : DcbErr → Option String
  | .io e => some ("io error: " ++ e.display)
  | .plain _ => none

/-- C86: no two kinds are written under one name. -/
theorem C86_names {k k' : IoKind} {n : String} (h : kindName k = some n) (h' : kindName k' = some n) : k = k' := by
  have e : ∀ k n, kindName k = some n → kindOfName (some n) = k := by
    intro k n h
    cases k <;> first | (cases h; rfl) | cases h
  rw [← e k n h, ← e k' n h']

/-- C86 (partial): the kind of an error is read back if it has a stable name. -/
theorem C86_kind_partial {e : IoError} (h : Named e.kind) : (readIo (writeIo e)).kind = e.kind := by
  show kindOfName (kindName e.kind) = e.kind
  obtain ⟨h1, h2, h3⟩ := h
  generalize e.kind = k at *
  cases k <;> first | rfl | exact absurd rfl h1 | exact absurd rfl h2 | exact absurd rfl h3

/-- C86 (partial): an error made with a text of its own is read back as it was, if its kind has a stable name. -/
theorem C86_custom_partial {k : IoKind} {t : String} (h : Named k) :
    readErr (writeErr (.io (.custom k t))) = .io (.custom k t) := by
  have := C86_kind_partial (e := .custom k t) h
  show DcbErr.io (.custom (kindOfName (kindName k)) t) = _
  exact congrArg (fun k => DcbErr.io (.custom k t)) this

/-- C86: the other errors are read back as they were, and an `Io` error never becomes another one or the other way round. -/
theorem C86_variant (e : DcbErr) : (∀ x, e = .plain x → readErr (writeErr e) = e) ∧
    (∀ x, e = .io x → ∃ y, readErr (writeErr e) = .io y) := by
  constructor
  · rintro x rfl; rfl
  · rintro x rfl; exact ⟨_, rfl⟩

/-- C86: a second passage changes nothing more. -/
theorem C86_twice (e : DcbErr) : readErr (writeErr (readErr (writeErr e))) = readErr (writeErr e) := by
  cases e with
  | plain e => rfl
  | io e =>
    show DcbErr.io (.custom (kindOfName (kindName (kindOfName (kindName e.kind)))) _) = .io (.custom _ _)
    have : kindOfName (kindName (kindOfName (kindName e.kind))) = kindOfName (kindName e.kind) := by
      generalize e.kind = k
      cases k <;> rfl
    rw [this]
    rfl

/-- C86: whatever is read, an `Io` error has a text and a kind with a stable name. -/
theorem C86_read (w : IoWire) : Named (readIo w).kind ∧ (readIo w).inner.isSome := by
  refine ⟨?_, rfl⟩
  show Named (kindOfName w.kind)
  unfold kindOfName
  split <;> decide

/-- C86: of every error that does not come from `io::Error::new` the text is lost. -/
theorem C86_text_false {e : IoError} (h : e.inner = none) : (readIo (writeIo e)).display = "unknown error" := by
  show (e.inner.getD _) = _
  rw [h]
  rfl

/-- C86: a full disk, reported by the operating system, is read back without its text and its code. -/
theorem C86_os_false : ∃ e : IoError, Named e.kind ∧ shown (.io e) = some "io error: No space left on device (os error 28)" ∧
    shown (readErr (writeErr (.io e))) = some "io error: unknown error" :=
  ⟨.os 28 .storageFull "No space left on device", by decide, by decide +kernel, by decide +kernel⟩

/-- C86: a kind without a stable name (input/output error, code 5) is read back as another one. -/
theorem C86_kind_false : ∃ e : IoError, (readIo (writeIo e)).kind ≠ e.kind :=
  ⟨.os 5 .uncategorized "Input/output error", by decide⟩

/-- What `pager.rs` 166 reports goes through unchanged. -/
example : readErr (writeErr (.io (.custom .unexpectedEof "page 7 out of bounds"))) = .io (.custom .unexpectedEof "page 7 out of bounds") :=
  C86_custom_partial (by decide)

example : writeErr (.io (.os 13 .permissionDenied "Permission denied")) = .io ⟨some "PermissionDenied", none⟩ := rfl

end Uma.Props
