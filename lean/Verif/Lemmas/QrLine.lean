import Verif.Spec.CompilerSpec
/- The decompositions on one line emit gates on that line only. -/
namespace Qudits.LocalQR
open Spec

theorem foldlM_invariant {σ γ : Type} (I : σ → Prop) (f : σ → γ → Except PyErr σ) (hf : ∀ s x s', I s → f s x = .ok s' → I s') (l : List γ) (s s' : σ)
    (h0 : I s) (h : l.foldlM f s = .ok s') : I s' := by
  induction l generalizing s with
  | nil => cases h; exact h0
  | cons a l ih =>
    rw [List.foldlM_cons] at h
    cases e : f s a with
    | error x => rw [e] at h; cases h
    | ok s1 => rw [e] at h; exact ih s1 (hf _ _ _ h0 e) h

theorem bind_ok {γ δ : Type} {x : Except PyErr γ} {f : γ → Except PyErr δ} {z : δ} (h : x.bind f = .ok z) : ∃ y, x = .ok y ∧ f y = .ok z := by
  cases x with
  | error e => cases h
  | ok y => exact ⟨y, rfl, h⟩

theorem rotInstr_line (q : Int) (d : Nat) (g : RGate) : OnLine q d (rotInstr q d g) := ⟨rfl, rfl, rfl⟩

theorem phaseInstr_line (q : Int) (d : Nat) (l : PVal) (x : ℝ) : OnLine q d (phaseInstr q d l x) := ⟨rfl, rfl, rfl⟩

/-- all gates of a list are on the line -/
def AllOn (q : Int) (d : Nat) (l : List PInstr) : Prop := ∀ x ∈ l, OnLine q d x

theorem AllOn.append {q : Int} {d : Nat} {l m : List PInstr} (h : AllOn q d l) (k : AllOn q d m) : AllOn q d (l ++ m) := by
  intro x hx
  rcases List.mem_append.1 hx with h' | h'
  · exact h x h'
  · exact k x h'

theorem AllOn.snoc {q : Int} {d : Nat} {l : List PInstr} (h : AllOn q d l) {x : PInstr} (k : OnLine q d x) : AllOn q d (l ++ [x]) :=
  h.append fun y hy => by rw [List.mem_singleton] at hy; rw [hy]; exact k

theorem allOn_rots (q : Int) (d : Nat) (l : List RGate) : AllOn q d (l.map (rotInstr q d)) := by
  intro x hx
  obtain ⟨g, _, rfl⟩ := List.mem_map.1 hx
  exact rotInstr_line q d g

theorem AllOn.revDag {q : Int} {d : Nat} {l : List PInstr} (h : AllOn q d l) : AllOn q d (revDag l) := by
  intro x hx
  unfold LocalQR.revDag at hx
  obtain ⟨y, hy, rfl⟩ := List.mem_map.1 hx
  exact h y (by simpa using hy)

/-- an emitter for the line -/
def EmitsOn (q : Int) (d : Nat) (emit : Emit) : Prop := ∀ r row theta phi pulses g out, emit r row theta phi pulses g = .ok out → AllOn q d out

theorem logEmit_on (q : Int) (d : Nat) : EmitsOn q d (logEmit q d) := by
  intro r row theta phi pulses g out h
  cases h
  exact allOn_rots q d [r]

theorem phyEmit_on (q : Int) (d : Nat) : EmitsOn q d (phyEmit q d) := by
  intro r row theta phi pulses g out h
  unfold phyEmit at h
  simp only [bind, pure] at h
  obtain ⟨a, _, h⟩ := bind_ok h
  obtain ⟨b, _, h⟩ := bind_ok h
  obtain ⟨r1, _, h⟩ := bind_ok h
  obtain ⟨r2, _, h⟩ := bind_ok h
  obtain ⟨bs, _, h⟩ := bind_ok h
  cases h
  exact ((allOn_rots q d _).append (allOn_rots q d [r2])).append (allOn_rots q d _)

theorem qrStep_on {sp : LGraph.PathFinder} {q : Int} {d : Nat} {eps : ℝ} {emit : Emit} (he : EmitsOn q d emit) {g : LGraph} {c : Nat} {st st' : QrState} {r : Nat}
    (h0 : AllOn q d st.decomp) (h : qrStep sp d eps emit g c st r = .ok st') : AllOn q d st'.decomp := by
  unfold qrStep at h
  simp only [bind, pure] at h
  obtain ⟨x, _, h⟩ := bind_ok h
  split_ifs at h with hc
  · obtain ⟨y, _, h⟩ := bind_ok h
    obtain ⟨rot, _, h⟩ := bind_ok h
    obtain ⟨m, _, h⟩ := bind_ok h
    obtain ⟨u, _, h⟩ := bind_ok h
    obtain ⟨k, _, h⟩ := bind_ok h
    obtain ⟨out, e, h⟩ := bind_ok h
    cases h
    exact h0.append (he _ _ _ _ _ _ _ e)
  · cases h; exact h0

theorem takePhases_on {q : Int} {d : Nat} {pre : Attrs → Except PyErr PVal} {g : LGraph} {s : LGraph × List PInstr × PyDict Nat ℝ}
    (h : takePhases q d pre g = .ok s) : AllOn q d s.2.1 := by
  unfold takePhases at h
  simp only [bind, pure] at h
  obtain ⟨b, _, h⟩ := bind_ok h
  have hnil : AllOn q d [] := fun x hx => by cases hx
  split_ifs at h with hb
  · refine foldlM_invariant (fun s => AllOn q d s.2.1) _ ?_ _ _ _ hnil h
    intro s i s' h0 h
    unfold takePhase at h
    simp only [bind, pure] at h
    obtain ⟨x, _, h⟩ := bind_ok h
    split_ifs at h with hz
    · obtain ⟨a, _, h⟩ := bind_ok h
      obtain ⟨l, _, h⟩ := bind_ok h
      obtain ⟨out, e, h⟩ := bind_ok h
      cases e
      obtain ⟨g', _, h⟩ := bind_ok h
      cases h
      exact h0.snoc (phaseInstr_line _ _ _ _)
    · obtain ⟨out, e, h⟩ := bind_ok h
      cases e
      obtain ⟨g', _, h⟩ := bind_ok h
      cases h
      exact h0
  · cases h; exact hnil

theorem qrPhase_on {q : Int} {d : Nat} {del : ℝ} {lev : LGraph → Nat → Except PyErr PVal} {g : LGraph} {u : Arr2 ℂ} {acc acc' : List PInstr} {i : Nat}
    (h0 : AllOn q d acc) (h : qrPhase q d del lev g u acc i = .ok acc') : AllOn q d acc' := by
  unfold qrPhase at h
  simp only [bind, pure] at h
  obtain ⟨x, _, h⟩ := bind_ok h
  split_ifs at h with hc
  · obtain ⟨l, _, h⟩ := bind_ok h
    cases h
    exact h0.snoc (phaseInstr_line _ _ _ _)
  · cases h; exact h0

theorem execute_on {sp : LGraph.PathFinder} {q : Int} {d : Nat} {eps del : ℝ} {pre : Attrs → Except PyErr PVal} {emit : Emit} (he : EmitsOn q d emit)
    {lev : LGraph → Nat → Except PyErr PVal} {zp ns : Bool} {u : Arr2 ℂ} {g : LGraph} {res : QrResult}
    (h : execute sp q d eps del pre emit lev zp ns u g = .ok res) : AllOn q d res.decomp := by
  unfold execute at h
  simp only [bind, pure] at h
  have key : ∀ (s : LGraph × List PInstr × PyDict Nat ℝ) (w : Except PyErr LGraph), AllOn q d s.2.1 →
      ((((List.range u.cols).foldlM (qrColumn sp d eps emit s.1 u.rows) ⟨u, s.2.1, 0, 0⟩).bind fun st =>
        ((List.range u.rows).foldlM (qrPhase q d del lev s.1 st.u) st.decomp).bind fun out =>
          w.bind fun g => Except.pure (⟨out, st.alg, st.tot, g⟩ : QrResult)) = .ok res) →
      AllOn q d res.decomp := by
    intro s w hs h
    obtain ⟨st, e1, h⟩ := bind_ok h
    obtain ⟨out, e2, h⟩ := bind_ok h
    obtain ⟨g', _, h⟩ := bind_ok h
    cases h
    refine foldlM_invariant (AllOn q d) _ (fun _ _ _ h0 h => qrPhase_on h0 h) _ _ _ ?_ e2
    refine foldlM_invariant (fun st : QrState => AllOn q d st.decomp) _ ?_ _ _ _ hs e1
    intro s1 c s2 h0 h
    unfold qrColumn at h
    exact foldlM_invariant (fun st : QrState => AllOn q d st.decomp) _ (fun _ _ _ h0 h => qrStep_on he h0 h) _ _ _ h0 h
  split_ifs at h with hz hn hn
  all_goals
    obtain ⟨s, e, h⟩ := bind_ok h
    refine key s _ ?_ h
    first
      | exact takePhases_on e
      | (cases e; exact fun x hx => by cases hx)

theorem phyPassGate_on {sp : LGraph.PathFinder} {q : Int} {d : Nat} {u : Arr2 ℂ} {g : LGraph} {r : List PInstr × LGraph}
    (h : phyPassGate sp q d u g = .ok r) : AllOn q d r.1 := by
  obtain ⟨l, g'⟩ := r
  unfold phyPassGate at h
  simp only [bind, pure] at h
  obtain ⟨res, e, h⟩ := bind_ok h
  cases h
  exact AllOn.revDag (execute_on (phyEmit_on q d) e)

theorem logPassGate_on {sp : LGraph.PathFinder} {q : Int} {d : Nat} {u : Arr2 ℂ} {g : LGraph} {r : List PInstr × LGraph}
    (h : logPassGate sp q d u g = .ok r) : AllOn q d r.1 := by
  unfold logPassGate at h
  simp only [bind, pure] at h
  obtain ⟨res, e, h⟩ := bind_ok h
  cases h
  exact execute_on (logEmit_on q d) e

end Qudits.LocalQR

namespace Qudits.Adaptive
open Spec LocalQR

theorem nodeGates_on (q : Int) (d : Nat) (nodes : List (TNode NodeData (Option LGraph))) : AllOn q d (nodeGates q d nodes) := by
  intro x hx
  unfold nodeGates at hx
  obtain ⟨n, _, hx⟩ := List.mem_flatMap.1 hx
  exact allOn_rots q d _ x hx

theorem phyExtract_on {q : Int} {d : Nat} {off del : ℝ} {zProp : Bool} {nodes : List (TNode NodeData (Option LGraph))} {g : Option LGraph}
    {r : List PInstr × Option LGraph} (h : phyExtract q d off del zProp nodes g = .ok r) : AllOn q d r.1 := by
  unfold phyExtract at h
  cases hl : nodes.getLast? with
  | none => rw [hl] at h; cases h
  | some l =>
    rw [hl] at h
    cases g with
    | none => cases h
    | some g =>
      simp only [bind, pure] at h
      split_ifs at h with h1 h2
      · obtain ⟨g', _, h⟩ := bind_ok h
        cases h
        exact nodeGates_on q d nodes
      · obtain ⟨out, e, h⟩ := bind_ok h
        obtain ⟨s, e2, h⟩ := bind_ok h
        cases h
        exact (foldlM_invariant (AllOn q d) _ (fun _ _ _ h0 h => qrPhase_on h0 h) _ _ _ (nodeGates_on q d nodes) e).append (takePhases_on e2)

theorem execute_on {fuel : Nat} {off : ℝ} {triples : Nat → List (Nat × Nat × Nat)} {step : Step} {extract : Extract} {q : Int} {d : Nat}
    (he : ∀ nodes g r, extract nodes g = .ok r → AllOn q d r.1) {limit : ℝ × ℝ} {u : Arr2 ℂ} {g : LGraph} {r : Result}
    (h : Adaptive.execute fuel off triples step extract limit u g = .ok r) : AllOn q d r.gates := by
  unfold Adaptive.execute at h
  simp only [bind, pure] at h
  obtain ⟨t, _, h⟩ := bind_ok h
  obtain ⟨a, _, h⟩ := bind_ok h
  split_ifs at h with hn
  · cases h; exact fun x hx => by cases hx
  · obtain ⟨s, e, h⟩ := bind_ok h
    cases h
    exact he _ _ _ e

theorem phyAdaGate_on {fuel : Nat} {sp : LGraph.PathFinder} {q : Int} {d : Nat} {zProp : Bool} {u : Arr2 ℂ} {g : Option LGraph}
    {r : List PInstr × Option LGraph} (h : phyAdaGate fuel sp q d zProp u g = .ok r) : AllOn q d r.1 := by
  unfold phyAdaGate at h
  cases g with
  | none => cases h
  | some g =>
    simp only [bind, pure] at h
    obtain ⟨res, _, h⟩ := bind_ok h
    obtain ⟨a, e, h⟩ := bind_ok h
    cases h
    exact (execute_on (fun _ _ _ k => phyExtract_on k) e).revDag

end Qudits.Adaptive
