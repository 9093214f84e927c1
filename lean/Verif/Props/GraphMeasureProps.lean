import Verif.Lemmas.Route
import Verif.Spec.MeasureSpec
import Verif.Lemmas.GraphMeasures
import Verif.Lemmas.LevelGraph
import Verif.Props.AdaViolations
/-! # C94: distances, sensitivities and kinds of nodes on the energy-level graph -/
namespace Qudits
open Spec LGraph

variable {sp : PathFinder} {g : LGraph}

theorem walk_of_path {a b : Int} {p : List Int} (h : IsPath g a b p) : Walk g a b p := ⟨h.first, h.last, h.steps⟩

theorem distance_unique {a b : Int} {k k' : Nat} (h : Distance g a b k) (h' : Distance g a b k') : k = k' := by
  obtain ⟨⟨p, p1, p2⟩, p3⟩ := h
  obtain ⟨⟨q, q1, q2⟩, q3⟩ := h'
  have := p3 q q1
  have := q3 p p1
  omega

/-- `distance_nodes(a, b)` is the least number of edges on a way from `a` to `b`. -/
theorem C94_distance (hsp : FindsShortest sp) (hg : Wf g) {a b : Int} (ha : a ∈ names g) (hab : ∃ p, Walk g a b p) :
    ∃ k : Nat, g.distanceNodes sp a b = .ok (k : Int) ∧ Distance g a b k := by
  obtain ⟨w, hw⟩ := hab
  obtain ⟨q, hq, _⟩ := walk_path w a b hw.first hw.last hw.steps
  obtain ⟨p, _, h2, h3, h4⟩ := distance_ok hsp hg ha ⟨q, hq⟩
  have := path_pos h2
  refine ⟨p.length - 1, h3, ⟨p, walk_of_path h2, by omega⟩, fun w hw => ?_⟩
  obtain ⟨q, hq, hl⟩ := walk_path w a b hw.first hw.last hw.steps
  have := h4 q hq
  omega

/-- the least numbers of edges are a metric: zero exactly for equal nodes, symmetric, with the triangle inequality -/
theorem C94_metric (a b c : Int) :
    Distance g a a 0 ∧ (Distance g a b 0 → a = b) ∧ (∀ k, Distance g a b k → Distance g b a k) ∧
      ∀ j k l, Distance g a b j → Distance g b c k → Distance g a c l → l ≤ j + k := by
  refine ⟨⟨⟨[a], ⟨rfl, rfl, by simp⟩, rfl⟩, ?_⟩, ?_, ?_, ?_⟩
  · intro p hp
    cases p with
    | nil => cases hp.first
    | cons => simp
  · rintro ⟨⟨p, hp, hl⟩, _⟩
    obtain ⟨x, rfl⟩ := List.length_eq_one_iff.1 hl
    have h1 : x = a := by simpa using hp.first
    have h2 : x = b := by simpa using hp.last
    rw [← h1, h2]
  · have rev : ∀ {a b p}, Walk g a b p → Walk g b a p.reverse := by
      intro a b p h
      refine ⟨by rw [List.head?_reverse]; exact h.last, by rw [List.getLast?_reverse]; exact h.first, ?_⟩
      rw [List.isChain_reverse]
      exact h.steps.imp fun u v huv => joined_comm.1 huv
    rintro k ⟨⟨p, hp, hl⟩, hm⟩
    refine ⟨⟨p.reverse, rev hp, by rw [List.length_reverse, hl]⟩, fun q hq => ?_⟩
    have := hm _ (rev hq)
    rwa [List.length_reverse] at this
  · rintro j k l ⟨⟨p, hp, hpl⟩, _⟩ ⟨⟨q, hq, hql⟩, _⟩ ⟨_, hm⟩
    obtain ⟨y, q', rfl⟩ : ∃ y q', q = y :: q' := List.exists_cons_of_length_pos (by omega)
    have hy : y = b := by simpa using hq.first
    subst hy
    have hw : Walk g a c (p ++ q') := by
      refine ⟨?_, ?_, ?_⟩
      · rw [List.head?_append_of_ne_nil _ (by rintro rfl; simp at hpl)]; exact hp.first
      · have h2 := hq.last
        cases q' with
        | nil => simpa [hp.last] using h2
        | cons z q' =>
          rw [List.getLast?_cons_cons] at h2
          rw [List.getLast?_append_of_ne_nil _ (by simp)]
          exact h2
      · rw [List.isChain_append]
        refine ⟨hp.steps, ?_, ?_⟩
        · exact (List.isChain_cons.1 hq.steps).2
        · intro x hx z hz
          rw [hp.last] at hx
          have hx : x = y := by simpa [eq_comm] using hx
          subst hx
          exact (List.isChain_cons.1 hq.steps).1 z hz
    have := hm _ hw
    rw [List.length_append] at this
    simp only [List.length_cons] at hql
    omega

/-- `distance_nodes_pi_pulses_fixed_ancilla` counts every edge and every negative node on the shortest way, less one. -/
theorem C94_ancilla (hsp : FindsShortest sp) (hg : Wf g) {a b : Int} (ha : a ∈ names g) (hab : ∃ p, Walk g a b p) :
    ∃ p, IsPath g a b p ∧ Distance g a b (p.length - 1) ∧
      g.distanceAncilla sp a b = .ok ((p.length : Int) - 1 + (p.countP fun n : Int => n < 0) - 1) := by
  obtain ⟨w, hw⟩ := hab
  obtain ⟨q, hq, _⟩ := walk_path w a b hw.first hw.last hw.steps
  obtain ⟨p, h1, h2, _, h4⟩ := distance_ok hsp hg ha ⟨q, hq⟩
  have hpos := path_pos h2
  refine ⟨p, h2, ⟨⟨p, walk_of_path h2, by omega⟩, fun w hw => ?_⟩, ?_⟩
  · obtain ⟨q, hq, hl⟩ := walk_path w a b hw.first hw.last hw.steps
    have := h4 q hq
    omega
  · unfold distanceAncilla
    rw [h1]
    simp only [bind, Except.bind, pure, Except.pure]
    congr 1
    have hc : p.length = (p.countP fun n : Int => decide (n < 0)) + p.countP fun n : Int => decide (0 ≤ n) := by
      rw [List.length_eq_countP_add_countP (fun n : Int => decide (n < 0))]
      congr 1
      refine List.countP_congr fun n _ => ?_
      simp
    omega

/-- On a graph without negative nodes it is the distance less one, so -1 from a node to itself: it is no distance. -/
theorem C94_ancilla_violated (hsp : FindsShortest sp) (hg : Wf g) {a : Int} (ha : a ∈ names g) (h0 : 0 ≤ a) :
    g.distanceAncilla sp a a = .ok (-1) := by
  obtain ⟨p, h1, h2, h3⟩ := C94_ancilla (b := a) hsp hg ha ⟨[a], ⟨rfl, rfl, by simp⟩⟩
  have hk := distance_unique h2 (C94_metric (g := g) a a a).1
  have := path_pos h1
  obtain ⟨x, rfl⟩ := List.length_eq_one_iff.1 (show p.length = 1 by omega)
  have hx : x = a := by have h := h1.first; rw [List.head?_cons] at h; exact Option.some.inj h
  rw [h3, hx]
  have : ¬ a < 0 := by omega
  simp [this]

/-- `get_node_sensitivity_cost(n)` is the sum of the sensitivities of the edges at `n`, if each of them has one. -/
theorem C94_sensitivity (hg : Wf g) {n : Int} (hn : n ∈ names g)
    (hs : ∀ m d, edgeData g n m = some d → (PyDict.get? d "sensitivity").isSome) :
    g.nodeSensitivity n = .ok ((names g).map fun m => sensitivity g n m).sum := by
  have hother : ∀ e ∈ g.edges, (e.1 == n || e.2.1 == n) = true → joins n (if e.1 == n then e.2.1 else e.1) e = true := by
    intro e _ he
    rw [joins_iff]
    by_cases h : e.1 = n
    · simp [h]
    · simp only [Bool.or_eq_true, beq_iff_eq, h, false_or] at he
      simp [h, he]
  unfold nodeSensitivity neighbors
  rw [if_pos (show n ∈ PyDict.keys g.nodes from hn)]
  refine (foldlM_sens n _ 0 ?_).trans ?_
  · intro m hm
    obtain ⟨e, he, rfl⟩ := List.mem_map.1 hm
    obtain ⟨he, hc⟩ := List.mem_filter.1 he
    have hf := edgeData_of_mem g.edges hg.simple e he _ _ (hother e he hc)
    have hd : edgeData g n (if e.1 == n then e.2.1 else e.1) = some e.2.2 := by unfold edgeData; rw [hf]; rfl
    obtain ⟨k, hk⟩ := Option.isSome_iff_exists.1 (hs _ _ hd)
    refine ⟨k, ?_⟩
    unfold edgeSensitivity
    rw [hd]
    simp only [sensitivityOf, hk]
  · rw [zero_add]
    congr 1
    refine Eq.trans ?_ (sens_sum hg.nodup n g.edges hg.simple hg.ends)
    rw [List.map_map]
    congr 1
    refine List.map_congr_left fun e he => ?_
    obtain ⟨he, hc⟩ := List.mem_filter.1 he
    have hf := edgeData_of_mem g.edges hg.simple e he _ _ (hother e he hc)
    simp only [Function.comp_apply, sens, hf, sensE, Option.map_some, Option.bind_some]

/-- A node that does not exist is refused, and so is a node with an edge without sensitivity. -/
theorem C94_sensitivity_refused (hg : Wf g) (n : Int) :
    (n ∉ names g → g.nodeSensitivity n = .error .nodeNotFound) ∧
    (∀ m d, edgeData g n m = some d → PyDict.get? d "sensitivity" = none → g.nodeSensitivity n = .error .keyError) := by
  constructor
  · intro hn
    unfold nodeSensitivity neighbors
    rw [if_neg (show n ∉ PyDict.keys g.nodes from hn)]
    rfl
  · intro m d hd hk
    have hn : n ∈ names g := (joined_ends hg (show Spec.Joined g n m by unfold Spec.Joined; rw [hd]; rfl)).1
    have hd' := hd
    unfold edgeData at hd'
    obtain ⟨e, he, he'⟩ := Option.map_eq_some_iff.1 hd'
    have hj := (joins_iff n m e).1 (List.find?_some he)
    have hmem := List.mem_of_find?_eq_some he
    unfold nodeSensitivity neighbors
    rw [if_pos (show n ∈ PyDict.keys g.nodes from hn)]
    refine foldlM_sens_error n _ 0 ⟨m, ?_, ?_⟩
    · refine List.mem_map.2 ⟨e, List.mem_filter.2 ⟨hmem, ?_⟩, ?_⟩
      · rcases hj with ⟨h, _⟩ | ⟨_, h⟩ <;> simp [h]
      · rcases hj with ⟨h, h'⟩ | ⟨h, h'⟩
        · simp [h, h']
        · by_cases hnm : m = n
          · simp [h, h', hnm]
          · simp [h, hnm]
    · unfold edgeSensitivity
      rw [hd]
      simp only [sensitivityOf, hk]

/-- After `swap_nodes(a, b)` distances and sensitivities are those of the exchanged nodes. -/
theorem C94_swapped (hg : Wf g) (hu : Uniform g) {a b : Int} (ha : a ∈ names g) (hb : b ∈ names g) :
    ∃ h, g.swapNodes a b = .ok h ∧ (∀ u v k, Distance h u v k ↔ Distance g (Equiv.swap a b u) (Equiv.swap a b v) k) ∧
      ∀ n ∈ names g, (∀ m d, edgeData g (Equiv.swap a b n) m = some d → (PyDict.get? d "sensitivity").isSome) →
        h.nodeSensitivity n = g.nodeSensitivity (Equiv.swap a b n) := by
  obtain ⟨h, h1, hw, _, hr, _⟩ := swapNodes_ok g hg hu a b ha hb
  have hwalk : ∀ u v p, Walk h u v p ↔ Walk g (Equiv.swap a b u) (Equiv.swap a b v) (p.map (Equiv.swap a b)) := by
    intro u v p
    constructor
    · intro w
      refine ⟨by rw [List.head?_map, w.first]; rfl, by rw [List.getLast?_map, w.last]; rfl, ?_⟩
      rw [List.isChain_map]
      refine w.steps.imp fun x y hxy => ?_
      unfold Spec.Joined at *
      rw [← hr.edges]; exact hxy
    · intro w
      refine ⟨?_, ?_, ?_⟩
      · have := w.first
        rw [List.head?_map, Option.map_eq_some_iff] at this
        obtain ⟨x, hx, he⟩ := this
        rw [hx, (Equiv.swap a b).injective he]
      · have := w.last
        rw [List.getLast?_map, Option.map_eq_some_iff] at this
        obtain ⟨x, hx, he⟩ := this
        rw [hx, (Equiv.swap a b).injective he]
      · have := w.steps
        rw [List.isChain_map] at this
        refine this.imp fun x y hxy => ?_
        unfold Spec.Joined at *
        rw [hr.edges]; exact hxy
  have hback : ∀ p : List Int, (p.map (Equiv.swap a b)).map (Equiv.swap a b) = p := by
    intro p
    rw [List.map_map]
    exact (List.map_congr_left fun x _ => by simp).trans (List.map_id p)
  refine ⟨h, h1, fun u v k => and_congr ⟨?_, ?_⟩ ⟨?_, ?_⟩, ?_⟩
  · rintro ⟨p, hp, hl⟩
    exact ⟨_, (hwalk u v p).1 hp, by rw [List.length_map, hl]⟩
  · rintro ⟨p, hp, hl⟩
    exact ⟨p.map (Equiv.swap a b), (hwalk u v _).2 (by rwa [hback]), by rw [List.length_map, hl]⟩
  · intro hm p hp
    have := hm (p.map (Equiv.swap a b)) ((hwalk u v _).2 (by rwa [hback]))
    rwa [List.length_map] at this
  · intro hm p hp
    have := hm _ ((hwalk u v p).1 hp)
    rwa [List.length_map] at this
  · intro n hn hs
    have hn' : n ∈ names h := by rw [hr.names]; exact hn
    rw [C94_sensitivity hw hn' (by intro m d hd; rw [hr.edges] at hd; exact hs _ d hd), C94_sensitivity hg ((swap_mem ha hb).2 hn) hs]
    congr 1
    rw [hr.names]
    have e1 : ((names g).map fun m => sensitivity h n m) = ((names g).map (Equiv.swap a b)).map fun m => sensitivity g (Equiv.swap a b n) m := by
      rw [List.map_map]
      refine List.map_congr_left fun m _ => ?_
      simp only [Function.comp_apply, sensitivity, hr.edges]
    rw [e1]
    refine (List.Perm.map _ ?_).sum_eq
    rw [List.perm_ext_iff_of_nodup (hg.nodup.map (Equiv.swap a b).injective) hg.nodup]
    intro x
    rw [List.mem_map]
    constructor
    · rintro ⟨y, hy, rfl⟩
      exact (swap_mem ha hb).2 hy
    · intro hx
      exact ⟨Equiv.swap a b x, (swap_mem ha hb).2 hx, by simp⟩

/-- `get_edge_sensitivity(u, v)` is the sensitivity of the edge, the same in both directions; it is refused if there is no edge or the edge
has none; and after `swap_nodes(a, b)` it is that of the exchanged nodes. -/
theorem C94_edge (hg : Wf g) (hu : Uniform g) (u v : Int) :
    (∀ d k, edgeData g u v = some d → PyDict.get? d "sensitivity" = some k → g.edgeSensitivity u v = .ok k ∧ sensitivity g u v = k) ∧
    ((∀ d, edgeData g u v = some d → PyDict.get? d "sensitivity" = none) → g.edgeSensitivity u v = .error .keyError) ∧
    g.edgeSensitivity v u = g.edgeSensitivity u v ∧
    ∀ a b, a ∈ names g → b ∈ names g → ∃ h, g.swapNodes a b = .ok h ∧
      h.edgeSensitivity u v = g.edgeSensitivity (Equiv.swap a b u) (Equiv.swap a b v) := by
  refine ⟨fun d k h1 h2 => ?_, fun h => ?_, ?_, fun a b ha hb => ?_⟩
  · unfold edgeSensitivity sensitivity sensitivityOf
    rw [h1]
    simp [h2]
  · unfold edgeSensitivity sensitivityOf
    cases hd : edgeData g u v with
    | none => rfl
    | some d =>
      dsimp only
      rw [h d hd]
  · unfold edgeSensitivity
    rw [edgeData_symm g v u]
  · obtain ⟨h, h1, _, _, hr, _⟩ := swapNodes_ok g hg hu a b ha hb
    refine ⟨h, h1, ?_⟩
    unfold edgeSensitivity
    rw [hr.edges]

open Classical in
/-- The nodes of a kind, in the order of the graph: the first of them and the question whether a node is one of them. -/
theorem C94_kinds (hg : Wf g) (hl : ∀ n ∈ names g, ∃ s, value g n "level" = some (.str s)) (n : Int) :
    g.isInode n = .ok (decide (value g n "level" = some (.str "i"))) ∧ g.isIrnode n = .ok (decide (value g n "level" = some (.str "r"))) ∧
    (g.fstInode = match (names g).find? fun m => decide (value g m "level" = some (.str "i")) with | some m => .ok m | none => .error .indexError) ∧
    (g.fstRnode = match (names g).find? fun m => decide (value g m "level" = some (.str "r")) with | some m => .ok m | none => .error .indexError) := by
  have key : ∀ s, g.levelNodes s = .ok ((names g).filter fun m => decide (value g m "level" = some (.str s))) := by
    intro s
    rw [Adaptive.levelNodes_eq hg]
    have : ∀ (ns acc : List Int), (∀ m ∈ ns, ∃ t, value g m "level" = some (.str t)) →
        ns.foldlM (Adaptive.pick (fun n => value g n "level") s) acc = (Except.ok (acc ++ ns.filter fun m => decide (value g m "level" = some (.str s))) : Except PyErr _) := by
      intro ns
      induction ns with
      | nil => intro acc _; simp [pure, Except.pure]
      | cons m ns ih =>
        intro acc h
        obtain ⟨t, ht⟩ := h m (by simp)
        rw [List.foldlM_cons]
        unfold Adaptive.pick
        simp only [ht, bind, Except.bind]
        have ih' := fun acc => ih acc fun m hm => h m (by simp [hm])
        unfold Adaptive.pick at ih'
        refine (ih' _).trans ?_
        rw [List.filter_cons]
        by_cases hts : t = s <;> simp [ht, hts]
    simpa using this (names g) [] hl
  have mem : ∀ s, n ∈ (names g).filter (fun m => decide (value g m "level" = some (.str s))) ↔ value g n "level" = some (.str s) := by
    intro s
    rw [List.mem_filter, decide_eq_true_eq]
    refine ⟨And.right, fun h => ⟨?_, h⟩⟩
    by_contra hc
    rw [value_none g n hc] at h
    cases h
  have fst : ∀ s, (names g).find? (fun m => decide (value g m "level" = some (.str s))) = ((names g).filter fun m => decide (value g m "level" = some (.str s))).head? := by
    intro s
    rw [List.head?_filter]
  refine ⟨?_, ?_, ?_, ?_⟩
  · unfold isInode
    rw [key]
    simp only [bind, Except.bind, pure, Except.pure]
    exact congrArg Except.ok (decide_eq_decide.2 (mem _))
  · unfold isIrnode
    rw [key]
    simp only [bind, Except.bind, pure, Except.pure]
    exact congrArg Except.ok (decide_eq_decide.2 (mem _))
  · unfold fstInode
    rw [key, fst]
    simp only [bind, Except.bind]
    cases (names g).filter fun m => decide (value g m "level" = some (.str "i")) <;> rfl
  · unfold fstRnode
    rw [key, fst]
    simp only [bind, Except.bind]
    cases (names g).filter fun m => decide (value g m "level" = some (.str "r")) <;> rfl

/-- three levels in a row with sensitivities 3 and 4 -/
def sensRow : LGraph :=
  ⟨[(0, [("level", .str "i")]), (1, [("level", .str "r")]), (2, [("level", .str "r")])],
    [(0, 1, [("sensitivity", 3)]), (2, 1, [("delta_m", 0), ("sensitivity", 4)])], none⟩

theorem sensRow_wf : Wf sensRow := by
  refine ⟨by decide, ?_, ?_, ?_⟩
  · intro p hp
    simp only [sensRow, List.mem_cons, List.not_mem_nil, or_false] at hp
    rcases hp with rfl | rfl | rfl <;> exact List.nodup_singleton _
  · simp [sensRow, SameEnds]
  · intro e he
    simp only [sensRow, List.mem_cons, List.not_mem_nil, or_false] at he
    rcases he with rfl | rfl <;> decide

example : sensRow.nodeSensitivity 1 = .ok 7 ∧ sensRow.nodeSensitivity 5 = .error .nodeNotFound := by
  refine ⟨?_, (C94_sensitivity_refused sensRow_wf 5).1 (by decide)⟩
  rw [C94_sensitivity sensRow_wf (by decide)]
  · decide
  · intro m d hd
    unfold edgeData at hd
    obtain ⟨e, he, rfl⟩ := Option.map_eq_some_iff.1 hd
    have := List.mem_of_find?_eq_some he
    simp only [sensRow, List.mem_cons, List.not_mem_nil, or_false] at this
    rcases this with rfl | rfl <;> decide

example (hsp : FindsShortest sp) : sensRow.distanceNodes sp 0 2 = .ok 2 := by
  have hw : Walk sensRow 0 2 [0, 1, 2] := ⟨rfl, rfl, by
    simp [Spec.Joined, edgeData, joins, sensRow]⟩
  obtain ⟨k, h1, h2⟩ := C94_distance hsp sensRow_wf (a := 0) (b := 2) (by decide) ⟨_, hw⟩
  have hle : k + 1 ≤ 3 := h2.2 _ hw
  have hle : k ≤ 2 := by omega
  obtain ⟨⟨p, hp, hl⟩, _⟩ := h2
  have : k = 2 := by
    interval_cases k
    · obtain ⟨x, rfl⟩ := List.length_eq_one_iff.1 hl
      have e1 := hp.first
      have e2 := hp.last
      simp only [List.head?_cons, List.getLast?_singleton] at e1 e2
      rw [e1] at e2
      cases e2
    · obtain ⟨x, y, rfl⟩ := List.length_eq_two.1 hl
      have e1 := hp.first
      have e2 := hp.last
      simp only [List.head?_cons, List.getLast?_cons_cons, List.getLast?_singleton, Option.some.injEq] at e1 e2
      subst e1; subst e2
      have := hp.steps
      rw [List.isChain_cons_cons] at this
      exact absurd this.1 (by simp [Spec.Joined, edgeData, joins, sensRow])
    · rfl
  rw [h1, this]; rfl

end Qudits
