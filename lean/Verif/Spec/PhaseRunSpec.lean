import Verif.Spec.PhaseSpec
/-! # Runs of neighbouring gates on the same lines, and what the Z-propagation pass makes of them -/
namespace Qudits.Spec
open PhasePass

/-- A circuit cut into its runs: the gates of a run have the same targets, gates of neighbouring runs have different ones. -/
structure Runs (runs : List (List PInstr)) : Prop where
  same : ∀ r ∈ runs, r ≠ [] ∧ ∃ q : List Int, q ≠ [] ∧ ∀ g ∈ r, g.target.lines = q
  differ : List.IsChain (fun r r' : List PInstr => ∀ g ∈ r, ∀ g' ∈ r', g.target.lines ≠ g'.target.lines) runs

/-- The runs are treated one after the other. For a run of at least two gates the positions it had in the given circuit are removed from the
list, whatever is there by now, and its new gates are added at the end. Each run comes with its new gates; `k` is the position of the first. -/
def moved : Nat → List (List PInstr × List PInstr) → List PInstr → List PInstr
  | _, [], cur => cur
  | k, (run, new) :: rest, cur =>
    moved (k + run.length) rest (if 2 ≤ run.length then cur.take k ++ cur.drop (k + run.length) ++ new else cur)

end Qudits.Spec
