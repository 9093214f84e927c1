import Verif.Lemmas.LevelGraph
import Mathlib.Data.List.Perm.Basic
import Mathlib.Data.List.Nodup
import Mathlib.Tactic.NormNum
namespace Qudits
open LGraph Spec

/-! # Swapping levels in the energy graph (C36) -/

/-- A graph built by the constructor is well formed, all its nodes have the same attributes, and node number `i` is mapped to the
`i`-th physical level. -/
theorem C36_create (edges : List LEdge) (nodes mapping l : List Int) (o : Option (Int × Nat)) (hd : nodes.Nodup)
    (hl : mapping.length = nodes.length) (h0 : nodes ≠ []) (he : ∀ e ∈ edges, e.1 ∈ nodes ∧ e.2.1 ∈ nodes)
    (hs : edges.Pairwise fun e f => ¬ SameEnds e f) :
    Wf (create edges nodes mapping (some l) o) ∧ Uniform (create edges nodes mapping (some l) o) ∧
      names (create edges nodes mapping (some l) o) = nodes ∧
      ∀ (i : Nat) (n k : Int), nodes[i]? = some n → mapping[i]? = some k →
        value (create edges nodes mapping (some l) o) n "lpmap" = some (.int k) := by
  obtain ⟨h1, h2, _, h3, h4, h5⟩ := create_ok edges nodes mapping l o hd hl h0 he hs
  refine ⟨h1, ?_, h2, h3⟩
  intro n hn m hm k hk
  rw [h2] at hn hm
  by_cases k1 : k = "lpmap"
  · subst k1
    obtain ⟨i, hi⟩ := List.mem_iff_getElem?.1 hm
    obtain ⟨hlt, _⟩ := List.getElem?_eq_some_iff.1 hi
    rw [h3 i m (mapping[i]'(by omega)) hi (List.getElem?_eq_getElem (by omega))]
    rfl
  · by_cases k2 : k = "level"
    · subst k2
      rw [h4 m hm]; rfl
    · rw [h5 n k k1 k2] at hk
      cases hk

/-- Swapping two nodes exchanges their attributes and their edges, and nothing else. -/
theorem C36_swap (g : LGraph) (hg : Wf g) (hu : Uniform g) (a b : Int) (ha : a ∈ names g) (hb : b ∈ names g) :
    ∃ h, g.swapNodes a b = .ok h ∧ Wf h ∧ Uniform h ∧ Renamed (Equiv.swap a b) g h := by
  obtain ⟨h, h1, h2, h3, h4, _⟩ := swapNodes_ok g hg hu a b ha hb
  exact ⟨h, h1, h2, h3, h4⟩

theorem Spec.Renamed.trans {σ τ : Equiv.Perm Int} {g h k : LGraph} (h1 : Renamed σ g h) (h2 : Renamed τ h k) : Renamed (σ * τ) g k :=
  ⟨h2.names.trans h1.names, fun n s => by rw [h2.value, h1.value]; rfl, fun u v => by rw [h2.edges, h1.edges]; rfl⟩

/-- Any history of swaps is one renaming by the product of the transpositions, and this renaming permutes the nodes. -/
theorem C36_history (l : List (Int × Int)) (g : LGraph) (hg : Wf g) (hu : Uniform g)
    (hl : ∀ p ∈ l, p.1 ∈ names g ∧ p.2 ∈ names g) :
    ∃ h, swaps g l = .ok h ∧ Wf h ∧ Uniform h ∧ Renamed ((l.map fun p => Equiv.swap p.1 p.2).prod) g h ∧
      ∀ n, (l.map fun p => Equiv.swap p.1 p.2).prod n ∈ names g ↔ n ∈ names g := by
  induction l generalizing g with
  | nil => exact ⟨g, rfl, hg, hu, ⟨rfl, fun _ _ => rfl, fun _ _ => rfl⟩, fun _ => Iff.rfl⟩
  | cons p ps ih =>
    obtain ⟨h, h1, h2, h3, h4⟩ := C36_swap g hg hu p.1 p.2 (hl p (by simp)).1 (hl p (by simp)).2
    obtain ⟨k, k1, k2, k3, k4, k5⟩ := ih h h2 h3 (fun q hq => by rw [h4.names]; exact hl q (by simp [hq]))
    refine ⟨k, ?_, k2, k3, ?_, ?_⟩
    · unfold swaps
      rw [List.foldlM_cons, h1]
      exact k1
    · rw [List.map_cons, List.prod_cons]
      exact h4.trans k4
    · intro n
      rw [List.map_cons, List.prod_cons, Equiv.Perm.mul_apply, swap_mem (hl p (by simp)).1 (hl p (by simp)).2]
      have := k5 n
      rw [h4.names] at this
      exact this

/-- Swapping the same two nodes twice restores attributes and edges. -/
theorem C36_twice (g : LGraph) (hg : Wf g) (hu : Uniform g) (a b : Int) (ha : a ∈ names g) (hb : b ∈ names g) :
    ∃ h, swaps g [(a, b), (a, b)] = .ok h ∧ Renamed 1 g h := by
  obtain ⟨h, h1, _, _, h4, _⟩ := C36_history [(a, b), (a, b)] g hg hu (by simp [ha, hb])
  refine ⟨h, h1, ?_⟩
  have e : ([(a, b), (a, b)].map fun p : Int × Int => Equiv.swap p.1 p.2).prod = 1 := by
    simp [Equiv.swap_mul_self]
  rw [← e]
  exact h4

theorem logPhyMap_iff (g : LGraph) (hg : Wf g) (l : List PVal) :
    g.logPhyMap = .ok l ↔ (names g).map (fun n => value g n "lpmap") = l.map some := by
  have key : ∀ (ns : PyDict Int Attrs) (l : List PVal),
      List.mapM (fun p => attr p.2 "lpmap") ns = (Except.ok l : Except PyErr _) ↔
        ns.map (fun p => PyDict.get? p.2 "lpmap") = l.map some := by
    intro ns
    induction ns with
    | nil =>
      intro l
      rw [List.mapM_nil]
      cases l <;> simp [pure, Except.pure]
    | cons p ps ih =>
      intro l
      rw [List.mapM_cons]
      rw [List.map_cons]
      cases hp : PyDict.get? p.2 "lpmap" with
      | none =>
        have ha : attr p.2 "lpmap" = .error .keyError := by simp [attr, hp]
        rw [ha]
        cases l <;> simp [bind, Except.bind]
      | some v =>
        have ha : attr p.2 "lpmap" = .ok v := by simp [attr, hp]
        rw [ha]
        simp only [bind, Except.bind, pure, Except.pure]
        cases hq : List.mapM (fun p : Int × Attrs => attr p.2 "lpmap") ps with
        | error e =>
          simp only [reduceCtorEq, false_iff]
          intro hc
          cases l with
          | nil => simp at hc
          | cons w ws =>
            simp only [List.map_cons, List.cons.injEq] at hc
            rw [(ih ws).2 hc.2] at hq
            cases hq
        | ok l' =>
          have h' := (ih l').1 hq
          cases l with
          | nil => simp
          | cons w ws =>
            simp only [Except.ok.injEq, List.cons.injEq, List.map_cons, Option.some.injEq]
            rw [h']
            constructor
            · rintro ⟨rfl, rfl⟩; exact ⟨rfl, rfl⟩
            · rintro ⟨h1, h2⟩
              exact ⟨h1, List.map_injective_iff.2 (Option.some_injective _) h2⟩
  have hv : (names g).map (fun n => value g n "lpmap") = g.nodes.map (fun p => PyDict.get? p.2 "lpmap") := by
    apply List.ext_getElem?
    intro i
    rw [List.getElem?_map, List.getElem?_map]
    cases hp : g.nodes[i]? with
    | none => simp [names, PyDict.keys, hp]
    | some p =>
      have hi : (names g)[i]? = some p.1 := by simp [names, PyDict.keys, hp]
      rw [hi, Option.map_some, Option.map_some, value_of_pos g hg.nodup i p.1 hi]
      simp [attrsAt, hp]
  rw [hv]
  exact key g.nodes l

/-- The logical-to-physical map after any history of swaps contains the same physical levels, each as often as before: it stays a
permutation of the levels. -/
theorem C36_map (l : List (Int × Int)) (g h : LGraph) (hg : Wf g) (hu : Uniform g)
    (hl : ∀ p ∈ l, p.1 ∈ names g ∧ p.2 ∈ names g) (hs : swaps g l = .ok h) (m : List PVal) (hm : g.logPhyMap = .ok m) :
    ∃ m', h.logPhyMap = .ok m' ∧ m'.Perm m := by
  obtain ⟨h', h1, h2, _, h4, h5⟩ := C36_history l g hg hu hl
  rw [hs] at h1
  cases h1
  rw [logPhyMap_iff g hg] at hm
  set σ := (l.map fun p => Equiv.swap p.1 p.2).prod with hσ
  have hp : ((names g).map σ).Perm (names g) := by
    rw [List.perm_ext_iff_of_nodup (hg.nodup.map σ.injective) hg.nodup]
    intro n
    rw [List.mem_map]
    constructor
    · rintro ⟨x, hx, rfl⟩; exact (h5 x).2 hx
    · intro hn
      refine ⟨σ.symm n, ?_, by simp⟩
      rw [← h5]
      simpa using hn
  have hv : (names h).map (fun n => value h n "lpmap") = ((names g).map σ).map (fun n => value g n "lpmap") := by
    rw [h4.names, List.map_map]
    apply List.map_congr_left
    intro n _
    exact h4.value n "lpmap"
  have hperm : ((names h).map (fun n => value h n "lpmap")).Perm (m.map some) := by
    rw [hv, ← hm]
    exact hp.map _
  have hex : ∃ m' : List PVal, (names h).map (fun n => value h n "lpmap") = m'.map some := by
    refine ⟨((names h).map (fun n => value h n "lpmap")).filterMap id, ?_⟩
    have hall : ∀ x ∈ (names h).map (fun n => value h n "lpmap"), x.isSome := by
      intro x hx
      obtain ⟨y, _, rfl⟩ := List.mem_map.1 (hperm.mem_iff.1 hx)
      rfl
    generalize (names h).map (fun n => value h n "lpmap") = L at hall
    induction L with
    | nil => rfl
    | cons x xs ih =>
      obtain ⟨y, rfl⟩ := Option.isSome_iff_exists.1 (hall x (by simp))
      simp only [List.filterMap_cons, id, List.map_cons]
      exact congrArg _ (ih (fun z hz => hall z (by simp [hz])))
  obtain ⟨m', hm'⟩ := hex
  refine ⟨m', (logPhyMap_iff h h2 m').2 hm', ?_⟩
  rw [hm'] at hperm
  have := hperm.filterMap id
  simpa [List.filterMap_map] using this

/-- Swaps only rename logical nodes: which physical levels are coupled, and with which data, does not change. -/
theorem C36_physical (l : List (Int × Int)) (g h : LGraph) (hg : Wf g) (hu : Uniform g)
    (hl : ∀ p ∈ l, p.1 ∈ names g ∧ p.2 ∈ names g) (hs : swaps g l = .ok h) (p q : Int) (data : PyDict String Int) :
    PhysEdge h p q data ↔ PhysEdge g p q data := by
  obtain ⟨h', h1, _, _, h4, _⟩ := C36_history l g hg hu hl
  rw [hs] at h1
  cases h1
  set σ := (l.map fun p => Equiv.swap p.1 p.2).prod
  constructor
  · rintro ⟨u, v, e1, e2, e3⟩
    exact ⟨σ u, σ v, by rw [← h4.value, e1], by rw [← h4.value, e2], by rw [← h4.edges, e3]⟩
  · rintro ⟨u, v, e1, e2, e3⟩
    refine ⟨σ.symm u, σ.symm v, ?_, ?_, ?_⟩
    · rw [h4.value, Equiv.apply_symm_apply, e1]
    · rw [h4.value, Equiv.apply_symm_apply, e2]
    · rw [h4.edges, Equiv.apply_symm_apply, Equiv.apply_symm_apply, e3]

/-- A name that is not a node is refused. -/
theorem C36_rejects (g : LGraph) (a b : Int) (h : a ∉ names g ∨ b ∉ names g) : g.swapNodes a b = .error .valueError := by
  unfold swapNodes swapNodeAttributes
  by_cases ha : a ∈ names g
  · obtain ⟨i, hi, _⟩ := index_ok g.nodes a ha
    rw [hi]
    simp only [bind, Except.bind]
    rw [index_error g.nodes b (h.resolve_left (not_not_intro ha))]
  · rw [index_error g.nodes a ha]
    rfl

/-- The swapped graph forgets its circuit: it returns no phase gates, whatever phases it stores. -/
theorem C36_phases_forgotten (g h : LGraph) (a b : Int) (hg : Wf g) (hu : Uniform g) (ha : a ∈ names g) (hb : b ∈ names g)
    (hs : g.swapNodes a b = .ok h) : h.getVrzGates = .ok [] := by
  obtain ⟨h', h1, _, _, _, h5⟩ := swapNodes_ok g hg hu a b ha hb
  rw [hs] at h1
  cases h1
  unfold getVrzGates
  rw [h5]

/-- `swap_node_attr_simple` exchanges the stored phases of the nodes whose *names* are the *positions* of the given nodes. If node
number `i` is called `i`, these are the given nodes. -/
theorem C36_phase_swap_partial (g : LGraph) (a b : Int) (x y : ℝ) (hn : names g = (List.range (names g).length).map fun i : Nat => (i : Int))
    (hp : g.hasPhases = .ok true) (ha : value g a "phase_storage" = some (.flt x)) (hb : value g b "phase_storage" = some (.flt y)) :
    ∃ h, g.swapNodeAttrSimple a b = .ok h ∧ names h = names g ∧ h.edges = g.edges ∧ h.owner = g.owner ∧
      ∀ m k, value h m k = if k = "phase_storage" then value g (Equiv.swap a b m) k else value g m k := by
  have mem : ∀ c z, value g c "phase_storage" = some z → c ∈ names g := by
    intro c z hc
    by_contra hcon
    rw [value_none g c hcon] at hc
    cases hc
  have pos : ∀ c, c ∈ names g → g.position c = .ok c := by
    intro c hc
    unfold position
    rw [if_pos (show c ∈ PyDict.keys g.nodes from hc)]
    have hc' := hc
    rw [hn, List.mem_map] at hc'
    obtain ⟨i, hi, rfl⟩ := hc'
    rw [List.mem_range] at hi
    congr 2
    have hnd : (names g).Nodup := by
      rw [hn]
      exact List.nodup_range.map (fun u v h => by simpa using h)
    have hg : (names g)[i]? = some (i : Int) := by
      rw [hn]
      simp [hi]
    obtain ⟨h1, h2⟩ := List.getElem?_eq_some_iff.1 hg
    have := hnd.idxOf_getElem i h1
    rw [h2] at this
    exact this
  have hma := mem a _ ha
  have hmb := mem b _ hb
  obtain ⟨h1, e1, n1, d1, o1, v1⟩ := setPhase_ok g a y hma
  obtain ⟨h2, e2, n2, d2, o2, v2⟩ := setPhase_ok h1 b x (by rw [n1]; exact hmb)
  refine ⟨h2, ?_, n2.trans n1, d2.trans d1, o2.trans o1, ?_⟩
  · unfold swapNodeAttrSimple
    rw [pos a hma, pos b hmb, hp]
    simp only [bind, Except.bind]
    rw [phase_ok g a x ha, phase_ok g b y hb]
    simp only [if_true]
    rw [e1]
    exact e2
  · intro m k
    rw [v2, v1]
    by_cases hk : k = "phase_storage"
    · subst hk
      rw [if_pos rfl]
      by_cases m1 : m = b
      · subst m1
        rw [if_pos ⟨rfl, rfl⟩, Equiv.swap_apply_right, ha]
      · rw [if_neg (fun h => m1 h.1)]
        by_cases m2 : m = a
        · subst m2
          rw [if_pos ⟨rfl, rfl⟩, Equiv.swap_apply_left, hb]
        · rw [if_neg (fun h => m2 h.1), Equiv.swap_apply_of_ne_of_ne m2 m1]
    · rw [if_neg (fun h => hk h.2), if_neg (fun h => hk h.2), if_neg hk]

/-- Names in another order: asked to exchange the phases of nodes 2 and 0, it exchanges those of nodes 0 and 1. -/
theorem C36_phase_swap_violated :
    let g : LGraph := ⟨[(2, [("level", .str "i"), ("phase_storage", .flt 5)]), (0, [("level", .str "i"), ("phase_storage", .flt 6)]),
      (1, [("level", .str "i"), ("phase_storage", .flt 7)])], [], none⟩
    ∃ h, g.swapNodeAttrSimple 2 0 = .ok h ∧ value h 2 "phase_storage" = some (.flt 5) ∧ value h 0 "phase_storage" = some (.flt 7) ∧
      value h 1 "phase_storage" = some (.flt 6) := by
  refine ⟨⟨[(2, [("level", .str "i"), ("phase_storage", .flt 5)]), (0, [("level", .str "i"), ("phase_storage", .flt 7)]),
      (1, [("level", .str "i"), ("phase_storage", .flt 6)])], [], none⟩, rfl, rfl, rfl, rfl⟩

example :
    let g : LGraph := ⟨[(0, [("level", .str "i"), ("phase_storage", .flt 5)]), (1, [("level", .str "i"), ("phase_storage", .flt 6)]),
      (2, [("level", .str "i"), ("phase_storage", .flt 7)])], [], none⟩
    ∃ h, g.swapNodeAttrSimple 2 0 = .ok h ∧ value h 2 "phase_storage" = some (.flt 5) ∧ value h 1 "level" = some (.str "i") := by
  intro g
  obtain ⟨h, h1, _, _, _, h2⟩ := C36_phase_swap_partial g 2 0 7 5 (by decide) rfl rfl rfl
  refine ⟨h, h1, ?_, ?_⟩
  · rw [h2, if_pos rfl, Equiv.swap_apply_left]; rfl
  · rw [h2]; rfl

/-! ### examples -/

/-- Three levels in a row, mapped to the physical levels 2, 0, 1. -/
def sampleGraph : LGraph := create [(0, 1, [("sensitivity", 1)]), (1, 2, [("sensitivity", 3)])] [0, 1, 2] [2, 0, 1] (some [0]) (some (0, 3))

theorem sample_wf : Wf sampleGraph ∧ Uniform sampleGraph ∧ names sampleGraph = [0, 1, 2] := by
  have h := C36_create [(0, 1, [("sensitivity", 1)]), (1, 2, [("sensitivity", 3)])] [0, 1, 2] [2, 0, 1] [0] (some (0, 3))
    (by decide) rfl (by decide) (by decide) (by simp [SameEnds])
  exact ⟨h.1, h.2.1, h.2.2.1⟩

example : ∃ h, swaps sampleGraph [(0, 2), (1, 2)] = .ok h ∧ value h 2 "lpmap" = some (.int 0) ∧
    edgeData h 0 1 = none ∧ edgeData h 0 2 = some [("sensitivity", 3)] := by
  obtain ⟨h, h1, _, _, h4, _⟩ := C36_history [(0, 2), (1, 2)] sampleGraph sample_wf.1 sample_wf.2.1
    (by rw [sample_wf.2.2]; decide)
  refine ⟨h, h1, ?_, ?_, ?_⟩
  · rw [h4.value, show (([(0, 2), (1, 2)] : List (Int × Int)).map fun p => Equiv.swap p.1 p.2).prod 2 = 1 by decide]
    rfl
  · rw [h4.edges, show (([(0, 2), (1, 2)] : List (Int × Int)).map fun p => Equiv.swap p.1 p.2).prod 0 = 2 by decide,
      show (([(0, 2), (1, 2)] : List (Int × Int)).map fun p => Equiv.swap p.1 p.2).prod 1 = 0 by decide]
    rfl
  · rw [h4.edges, show (([(0, 2), (1, 2)] : List (Int × Int)).map fun p => Equiv.swap p.1 p.2).prod 0 = 2 by decide,
      show (([(0, 2), (1, 2)] : List (Int × Int)).map fun p => Equiv.swap p.1 p.2).prod 2 = 1 by decide]
    rfl

example : sampleGraph.logPhyMap = .ok [.int 2, .int 0, .int 1] := rfl

/-- A graph that would return a phase gate; after a swap it does not (`C36_phases_forgotten`). -/
def phasedGraph : LGraph :=
  ⟨[(0, [("lpmap", .int 0), ("phase_storage", .flt 1)]), (1, [("lpmap", .int 1), ("phase_storage", .flt 0)])], [(0, 1, [])], some (0, 2)⟩

/-- Swapping two nodes keeps the stored phases but loses the gates that would realise them. -/
theorem C36_phase_gates_violated : (∃ p, phasedGraph.getVrzGates = .ok p ∧ p.length = 1) ∧
    ∃ h, phasedGraph.swapNodes 0 1 = .ok h ∧ h.getVrzGates = .ok [] := by
  have hw : Wf phasedGraph := ⟨by decide, by simp [phasedGraph, PyDict.keys], by simp [phasedGraph], by simp [phasedGraph, names, PyDict.keys]⟩
  have hu : Uniform phasedGraph := by
    intro n hn m hm k hk
    have h01 : ∀ n ∈ names phasedGraph, ∀ k, (value phasedGraph n k).isSome ↔ k = "lpmap" ∨ k = "phase_storage" := by
      intro n hn k
      simp only [names, PyDict.keys, phasedGraph, List.map_cons, List.map_nil, List.mem_cons, List.not_mem_nil, or_false] at hn
      rcases hn with rfl | rfl <;>
        (simp only [value, phasedGraph, PyDict.get?]
         by_cases h1 : k = "lpmap"
         · subst h1; simp
           try decide
         · by_cases h2 : k = "phase_storage"
           · subst h2; simp
             try decide
           · have h1' : ¬ "lpmap" = k := fun e => h1 e.symm
             have h2' : ¬ "phase_storage" = k := fun e => h2 e.symm
             simp [PyDict.get?, h1, h2, h1', h2'])
    exact (h01 m hm k).2 ((h01 n hn k).1 hk)
  constructor
  · have p0 : phasedGraph.phase 0 = .ok 1 := rfl
    have p1 : phasedGraph.phase 1 = .ok 0 := rfl
    refine ⟨[⟨.virtRz (virtRzInit 2 (.list [.int 0, .flt 1])), .one 0, 2, none, false⟩], ?_, rfl⟩
    have h0 : ¬ ((0 : ℝ) > 1e-3 ∨ pyMod 0 (2 * Real.pi) > 1e-3) := by
      simp only [pyMod, zero_div, Int.floor_zero, Int.cast_zero, mul_zero, sub_zero, or_self]
      norm_num
    have h1 : ((1 : ℝ) > 1e-3 ∨ pyMod 1 (2 * Real.pi) > 1e-3) := Or.inl (by norm_num)
    unfold getVrzGates
    simp only [phasedGraph, PyDict.get?, List.foldlM_cons, List.foldlM_nil]
    simp only [phasedGraph] at p0 p1
    simp [p0, p1, h0, h1, attr, PyDict.get?, bind, Except.bind, pure, Except.pure]
  · obtain ⟨h, h1, _⟩ := C36_swap phasedGraph hw hu 0 1 (by decide) (by decide)
    exact ⟨h, h1, C36_phases_forgotten phasedGraph h 0 1 hw hu (by decide) (by decide) h1⟩

end Qudits
