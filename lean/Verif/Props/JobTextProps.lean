import Verif.Model.JobText
import Verif.Spec.JobSpec
/-!
# C107: status of a job as text

`JobStatus.from_string` (jobstatus.py:34-51) reads a status from "the string representation of the status"; `str` of a status is its
description (17-32).
-/
namespace Qudits
open Spec

/-- **C107** (what is read).  A text is read as a status exactly if it is the value of the status up to the case of the letters. -/
theorem C107_read (lower : String → String) (text : String) (s : JobStatus) :
    JobStatus.ofText lower text = .ok s ↔ lower text = s.value := by
  unfold JobStatus.ofText JobStatus.fromString
  constructor
  · intro h
    cases e : JobStatus.all.find? (fun s => s.value = lower text) with
    | none => rw [e] at h; cases h
    | some t =>
      rw [e] at h
      cases h
      have := List.find?_some e
      exact (of_decide_eq_true this).symm
  · intro h
    rw [h]
    cases s <;> rfl

/-- **C107** (what is rejected).  Every other text is rejected with a `ValueError`. -/
theorem C107_rejected (lower : String → String) (text : String) :
    (∀ s : JobStatus, lower text ≠ s.value) ↔ JobStatus.ofText lower text = .error .valueError := by
  constructor
  · intro h
    have : ∀ s, JobStatus.ofText lower text ≠ .ok s := fun s e => h s ((C107_read lower text s).1 e)
    unfold JobStatus.ofText JobStatus.fromString at this ⊢
    cases e : JobStatus.all.find? (fun s => s.value = lower text) with
    | none => rfl
    | some t =>
      rw [e] at this
      exact absurd rfl (this t)
  · intro h s e
    rw [(C107_read lower text s).2 e] at h
    cases h

/-- **C107** (round trip).  Full statement: the text of a status is read back; `C107_str_violated` shows that `str` is not.  The value of a status is read back, in small and in capital letters. -/
theorem C107_value_partial (lower : String → String) (hl : LowersAscii lower) (s : JobStatus) :
    JobStatus.ofText lower s.value = .ok s ∧
    JobStatus.ofText lower (String.ofList (s.value.toList.map Char.toUpper)) = .ok s := by
  rw [C107_read, C107_read]
  cases s <;> refine ⟨(hl _ (by unfold IsAscii; decide)).trans (by decide), (hl _ (by unfold IsAscii; decide)).trans (by decide)⟩

/-- **C107** (no two alike).  Values and descriptions tell the statuses apart. -/
theorem C107_apart (s t : JobStatus) : (s.value = t.value → s = t) ∧ (s.str = t.str → s = t) := by
  constructor
  · cases s <;> cases t <;> decide
  · cases s <;> cases t <;> decide

/-- **C107** (violated).  `from_string` reads the text that `str` gives for no status at all. -/
theorem C107_str_violated (lower : String → String) (hl : LowersAscii lower) (s : JobStatus) :
    JobStatus.ofText lower s.str = .error .valueError := by
  rw [← C107_rejected]
  intro t
  have : lower s.str = String.ofList (s.str.toList.map Char.toLower) := hl _ (by cases s <;> (unfold IsAscii; decide))
  rw [this]
  cases s <;> cases t <;> decide

/-- there is such a function; it reads "Done" -/
example : LowersAscii (fun s => String.ofList (s.toList.map Char.toLower)) ∧
    JobStatus.ofText (fun s => String.ofList (s.toList.map Char.toLower)) "Done" = .ok .done :=
  ⟨fun _ _ => rfl, (C107_read _ _ _).2 (by decide)⟩

end Qudits
