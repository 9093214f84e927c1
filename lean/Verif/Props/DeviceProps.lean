import Verif.Model.Devices
import Verif.Lemmas.Route
import Verif.Spec.CompilerSpec
/-
C74: the graphs that backends declare are devices the compiler's theorems apply to.
-/
namespace Qudits
open Spec LGraph

/-- two levels are the ends of a declared edge -/
def Spec.EdgeBetween (edges : List LEdge) (u v : Int) : Prop := ∃ e ∈ edges, (e.1 = u ∧ e.2.1 = v) ∨ (e.1 = v ∧ e.2.1 = u)

theorem joined_of_edge {g : LGraph} {u v : Int} (h : EdgeBetween g.edges u v) : Spec.Joined g u v := by
  obtain ⟨e, he, h⟩ := h
  unfold Spec.Joined edgeData
  rw [Option.isSome_map, List.find?_isSome]
  refine ⟨e, he, ?_⟩
  unfold joins
  rcases h with ⟨rfl, rfl⟩ | ⟨rfl, rfl⟩ <;> simp

/-- A way along edges can be made a path. -/
theorem path_of_way {g : LGraph} {a b : Int} (h : Relation.ReflTransGen (EdgeBetween g.edges) a b) : ∃ p, IsPath g a b p := by
  induction h with
  | refl => exact ⟨[a], rfl, rfl, by simp, by simp⟩
  | @tail b c _ hbc ih =>
    obtain ⟨p, hp⟩ := ih
    by_cases hc : c ∈ p
    · obtain ⟨s, t, rfl⟩ := List.append_of_mem hc
      have e : s ++ c :: t = (s ++ [c]) ++ t := by simp
      refine ⟨s ++ [c], ?_, by simp, ?_, ?_⟩
      · have := hp.first
        cases s with
        | nil => simpa using this
        | cons x s => simpa using this
      · have := hp.steps
        rw [e] at this
        exact this.left_of_append
      · have := hp.nodup
        rw [e] at this
        exact this.of_append_left
    · refine ⟨p ++ [c], ?_, by simp, ?_, ?_⟩
      · have := hp.first
        cases p with
        | nil => cases this
        | cons x p => simpa using this
      · rw [List.isChain_append]
        refine ⟨hp.steps, by simp, ?_⟩
        intro x hx y hy
        rw [hp.last] at hx
        obtain rfl := Option.some.inj hx
        obtain rfl : y = c := by simpa [eq_comm] using hy
        exact joined_of_edge hbc
      · rw [List.nodup_append]
        exact ⟨hp.nodup, by simp, by rintro x hx y hy rfl; exact hc (by simpa using List.mem_singleton.1 hy ▸ hx)⟩

/-- It is enough that there is a way from every level to level 0. -/
theorem ways_to_zero {d : Nat} {edges : List LEdge} (h : ∀ i : Fin d, Relation.ReflTransGen (EdgeBetween edges) ((i : Nat) : Int) 0) (i j : Fin d) :
    Relation.ReflTransGen (EdgeBetween edges) ((i : Nat) : Int) ((j : Nat) : Int) := by
  have hs : Std.Symm (EdgeBetween edges) := ⟨by
    rintro u v ⟨e, he, h⟩
    exact ⟨e, he, h.symm⟩⟩
  exact (h i).trans (Std.Symm.symm _ _ (h j))

theorem way_one {edges : List LEdge} {u : Int} (h : EdgeBetween edges u 0) : Relation.ReflTransGen (EdgeBetween edges) u 0 := .single h

theorem way_two {edges : List LEdge} {u : Int} (v : Int) (h : EdgeBetween edges u v) (h' : EdgeBetween edges v 0) :
    Relation.ReflTransGen (EdgeBetween edges) u 0 := (Relation.ReflTransGen.single h).tail h'

/-- Levels `0, …, d-1` in order, a placement that permutes them, edges between them, each once, that join all levels, and some level from which
calibration starts: `LevelGraph(edges, nodes, mapping, start)` is a device with this placement, its nodes are in order and it stores no phases. -/
theorem C74_declared {d : Nat} (lp : Equiv.Perm (Fin d)) (edges : List LEdge) (start : List Int) (owner : Option (Int × Nat))
    (hends : ∀ e ∈ edges, (0 ≤ e.1 ∧ e.1 < d) ∧ (0 ≤ e.2.1 ∧ e.2.1 < d)) (hsimple : edges.Pairwise fun e f => ¬ SameEnds e f)
    (hstart : ∃ i : Fin d, ((i : Nat) : Int) ∈ start)
    (hjoin : ∀ i j : Fin d, Relation.ReflTransGen (EdgeBetween edges) ((i : Nat) : Int) ((j : Nat) : Int)) :
    Device d (create edges ((List.range d).map fun i : Nat => (i : Int)) (placementList lp) (some start) owner) lp ∧
      InOrder d (create edges ((List.range d).map fun i : Nat => (i : Int)) (placementList lp) (some start) owner) ∧
      NoPhases d (create edges ((List.range d).map fun i : Nat => (i : Int)) (placementList lp) (some start) owner) := by
  obtain ⟨i0, hi0⟩ := hstart
  have hmem : ∀ n : Int, 0 ≤ n ∧ n < d → n ∈ (List.range d).map fun i : Nat => (i : Int) := by
    intro n hn
    exact List.mem_map.2 ⟨n.toNat, List.mem_range.2 (by omega), by simp; omega⟩
  have hfin : ∀ i : Fin d, ((i : Nat) : Int) ∈ (List.range d).map fun i : Nat => (i : Int) := fun i => hmem _ ⟨by omega, by have := i.isLt; omega⟩
  obtain ⟨h1, h2, h3, h4, h5, h6⟩ := create_ok edges ((List.range d).map fun i : Nat => (i : Int)) (placementList lp) start owner
    (List.nodup_range.map fun a b h => by simpa using h) (by simp [placementList]) (fun e => by
      have := hfin i0
      rw [e] at this
      cases this) (fun e he => ⟨hmem _ (hends e he).1, hmem _ (hends e he).2⟩) hsimple
  set g := create edges ((List.range d).map fun i : Nat => (i : Int)) (placementList lp) (some start) owner
  have hlp : ∀ i : Fin d, value g (i : Nat) "lpmap" = some (.int ((lp i : Fin d) : Nat)) := by
    intro i
    refine h4 i _ _ ?_ ?_
    · rw [List.getElem?_map, List.getElem?_range i.isLt]; rfl
    · simp [placementList]
  have hno : ∀ (i : Fin d) (v : PVal), value g (i : Nat) "phase_storage" = some v → False := by
    intro i v h
    rw [h6 _ _ (by decide) (by decide)] at h
    cases h
  refine ⟨⟨h1, ?_, by rw [h2], hlp, fun i => ⟨_, h5 _ (hfin i)⟩, ⟨i0, by rw [h5 _ (hfin i0), if_pos hi0]⟩, ?_, fun i v h => (hno i v h).elim⟩, h2,
    fun i v h => (hno i v h).elim⟩
  · intro n hn m hm k hk
    rw [h2] at hn hm
    by_cases hk1 : k = "lpmap"
    · subst hk1
      obtain ⟨j, hj, rfl⟩ := List.mem_map.1 hm
      rw [hlp ⟨j, List.mem_range.1 hj⟩]
      rfl
    · by_cases hk2 : k = "level"
      · subst hk2
        rw [h5 _ hm]
        rfl
      · rw [h6 _ _ hk1 hk2] at hk
        cases hk
  · intro i j
    refine path_of_way ?_
    rw [h3]
    exact hjoin i j

/-- The graphs of `FakeIonTraps2Six` and `FakeIonTraps3Six`. -/
theorem C74_six : Device 6 sixTrap 1 ∧ InOrder 6 sixTrap ∧ NoPhases 6 sixTrap := by
  refine C74_declared (d := 6) 1 _ [1] none (by decide) ?_ ⟨1, by simp⟩ ?_
  · simp [edgeOf, SameEnds]
  · refine ways_to_zero fun i => ?_
    fin_cases i
    · exact .refl
    · exact way_two 2 (by simp [EdgeBetween, edgeOf]) (by simp [EdgeBetween, edgeOf])
    all_goals exact way_one (by simp [EdgeBetween, edgeOf])

/-- The graphs of `FakeIonTraps2Trits`: levels 1 and 2 are kept in each other's place. -/
theorem C74_trits : Device 3 tritTrap (Equiv.swap 1 2) ∧ InOrder 3 tritTrap ∧ NoPhases 3 tritTrap := by
  refine C74_declared (d := 3) (Equiv.swap 1 2) _ [1] none (by decide) ?_ ⟨1, by simp⟩ ?_
  · simp [edgeOf, SameEnds]
  · refine ways_to_zero fun i => ?_
    fin_cases i
    · exact .refl
    all_goals exact way_one (by simp [EdgeBetween, edgeOf])

/-- The graphs of `Innsbruck01`. -/
theorem C74_innsbruck : Device 3 innsbruck 1 ∧ InOrder 3 innsbruck ∧ NoPhases 3 innsbruck := by
  refine C74_declared (d := 3) 1 _ [1] none (by decide) ?_ ⟨1, by simp⟩ ?_
  · simp [carrierEdge, SameEnds]
  · refine ways_to_zero fun i => ?_
    fin_cases i
    · exact .refl
    · exact way_one (by simp [EdgeBetween, carrierEdge])
    · exact way_two 1 (by simp [EdgeBetween, carrierEdge]) (by simp [EdgeBetween, carrierEdge])

end Qudits
