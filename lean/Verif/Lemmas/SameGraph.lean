import Verif.Lemmas.QrLine
import Verif.Lemmas.LevelGraph
/- The passes on one line change nothing in a graph but the stored phases. -/
namespace Qudits.LocalQR
open Spec LGraph

/-- same nodes in the same order, same edges -/
def SameGraph (g g' : LGraph) : Prop := Spec.names g' = Spec.names g ∧ g'.edges = g.edges

theorem SameGraph.refl (g : LGraph) : SameGraph g g := ⟨rfl, rfl⟩

theorem SameGraph.trans {a b c : LGraph} (h : SameGraph a b) (k : SameGraph b c) : SameGraph a c := ⟨k.1.trans h.1, k.2.trans h.2⟩

theorem setPhase_same {g h : LGraph} {n : Int} {x : ℝ} (e : g.setPhase n x = .ok h) : SameGraph g h := by
  have hm : n ∈ Spec.names g := by
    by_contra hc
    unfold setPhase LGraph.node at e
    cases ha : PyDict.get? g.nodes n with
    | none => rw [ha] at e; cases e
    | some a => exact hc ((PyDict.get?_isSome_iff g.nodes n).1 (by rw [ha]; rfl))
  obtain ⟨h', e1, e2, e3, _⟩ := setPhase_ok g n x hm
  rw [e1] at e
  rw [← Except.ok.inj e]
  exact ⟨e2, e3⟩

theorem takePhases_same {q : Int} {d : Nat} {pre : Attrs → Except PyErr PVal} {g : LGraph} {s : LGraph × List PInstr × PyDict Nat ℝ}
    (h : takePhases q d pre g = .ok s) : SameGraph g s.1 := by
  unfold takePhases at h
  simp only [bind, pure] at h
  obtain ⟨b, _, h⟩ := bind_ok h
  split_ifs at h with hb
  · refine foldlM_invariant (fun s => SameGraph g s.1) _ ?_ _ _ _ (SameGraph.refl g) h
    intro s i s' h0 h
    unfold takePhase at h
    simp only [bind, pure] at h
    obtain ⟨x, _, h⟩ := bind_ok h
    split_ifs at h with hz
    · obtain ⟨a, _, h⟩ := bind_ok h
      obtain ⟨l, _, h⟩ := bind_ok h
      obtain ⟨out, e, h⟩ := bind_ok h
      cases e
      obtain ⟨g', e, h⟩ := bind_ok h
      cases h
      exact h0.trans (setPhase_same e)
    · obtain ⟨out, e, h⟩ := bind_ok h
      cases e
      obtain ⟨g', e, h⟩ := bind_ok h
      cases h
      exact h0.trans (setPhase_same e)
  · cases h; exact SameGraph.refl g

theorem phyPassGate_same {sp : PathFinder} {q : Int} {d : Nat} {u : Arr2 ℂ} {g : LGraph} {r : List PInstr × LGraph}
    (h : phyPassGate sp q d u g = .ok r) : SameGraph g r.2 := by
  obtain ⟨l, g'⟩ := r
  unfold phyPassGate phyQr execute at h
  simp only [bind, pure] at h
  obtain ⟨res, e, h⟩ := bind_ok h
  cases h
  simp only [Bool.false_eq_true, if_false, Bool.false_and] at e
  obtain ⟨s, e1, e⟩ := bind_ok e
  obtain ⟨st, e2, e⟩ := bind_ok e
  obtain ⟨out, e3, e⟩ := bind_ok e
  obtain ⟨g2, e4, e⟩ := bind_ok e
  cases e4
  cases e
  exact takePhases_same e1

end Qudits.LocalQR

namespace Qudits.Adaptive
open Spec LocalQR LGraph

theorem phyExtract_same {q : Int} {d : Nat} {off del : ℝ} {zProp : Bool} {nodes : List (TNode NodeData (Option LGraph))} {g g1 : LGraph}
    {out : List PInstr} (h : phyExtract q d off del zProp nodes (some g) = .ok (out, some g1)) : SameGraph g g1 := by
  unfold phyExtract at h
  cases hl : nodes.getLast? with
  | none => rw [hl] at h; cases h
  | some l =>
    rw [hl] at h
    simp only [bind, pure] at h
    split_ifs at h with h1 h2
    · obtain ⟨g', e, h⟩ := bind_ok h
      cases h
      refine foldlM_invariant (fun s => SameGraph g s) _ ?_ _ _ _ (SameGraph.refl g) e
      intro s i s' h0 h
      unfold storePhase at h
      simp only [bind, pure] at h
      obtain ⟨x, _, h⟩ := bind_ok h
      split_ifs at h with hz
      · obtain ⟨b, _, h⟩ := bind_ok h
        split_ifs at h with hb
        · obtain ⟨z, _, h⟩ := bind_ok h
          exact h0.trans (setPhase_same h)
        · cases h; exact h0
      · cases h; exact h0
    · obtain ⟨out, e, h⟩ := bind_ok h
      obtain ⟨s, e2, h⟩ := bind_ok h
      cases h
      exact takePhases_same e2

end Qudits.Adaptive
