import Verif.Model.Gate

/- Specifications for controls, gate types and the long-range flag (C03, C04). -/
namespace Qudits.Spec

/-- A control request (lines `idx`, one level each in `lev`) that denotes a controlled gate on a
circuit with line dimensions `dims` and target lines `tgt`. -/
structure LegalControl (dims : List Nat) (tgt idx lev : List Int) : Prop where
  distinct : idx.Nodup
  sameLength : idx.length = lev.length
  lines : ∀ i ∈ idx, 0 ≤ i ∧ i < dims.length ∧ i ∉ tgt
  levels : ∀ p ∈ idx.zip lev, 0 ≤ p.2 ∧ ∃ d, dims[p.1.toNat]? = some d ∧ p.2 < d

/-- Some line strictly between two touched lines is not touched. -/
def HasGap (lines : List Int) : Prop :=
  ∃ m, (∃ a ∈ lines, a < m) ∧ (∃ b ∈ lines, m < b) ∧ m ∉ lines

/-- The gate type for a number of touched lines. -/
def typeFor : Nat → GateType
  | 0 => .single
  | 1 => .single
  | 2 => .two
  | _ => .multi

end Qudits.Spec
