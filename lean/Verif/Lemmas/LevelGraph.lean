import Verif.Spec.GraphSpec
namespace Qudits
open LGraph Spec

/-! ### dictionaries -/

theorem PyDict.get?_isSome_iff {κ ν : Type} [DecidableEq κ] (d : PyDict κ ν) (k : κ) :
    (PyDict.get? d k).isSome ↔ k ∈ PyDict.keys d := by
  rw [← not_iff_not, ← PyDict.get?_eq_none_iff]
  simp

theorem PyDict.get?_map_snd {ν ν' : Type} (d : PyDict Int ν) (f : ν → ν') (k : Int) :
    PyDict.get? (List.map (fun p : Int × ν => (p.1, f p.2)) d : PyDict Int ν') k = (PyDict.get? d k).map f := by
  induction d with
  | nil => rfl
  | cons p ps ih =>
    obtain ⟨a, b⟩ := p
    by_cases h : a = k
    · simp [PyDict.get?, h]
    · simp [PyDict.get?, h, ih]

theorem update_append {ν : Type} (e : PyDict String ν) : ∀ d : PyDict String ν, (PyDict.keys (d ++ e)).Nodup → update d e = d ++ e := by
  induction e with
  | nil => intro d _; simp [update]
  | cons p ps ih =>
    intro d h
    obtain ⟨k, v⟩ := p
    have hk : k ∉ PyDict.keys d := by
      simp only [PyDict.keys, List.map_append, List.map_cons] at h
      have := (List.nodup_append.1 h).2.2
      intro hm
      exact this k hm k (by simp) rfl
    have h1 : update d ((k, v) :: ps) = update (PyDict.set d k v) ps := rfl
    rw [h1, PyDict.set_of_not_mem d k v hk, ih _ (by simpa using h)]
    simp

theorem update_nil {ν : Type} (e : PyDict String ν) (h : (PyDict.keys e).Nodup) : update [] e = e := by
  simpa using update_append e [] (by simpa using h)

/-! ### nodes -/

theorem addNodes (ns : PyDict Int Attrs) (ha : ∀ p ∈ ns, (PyDict.keys p.2).Nodup) : ∀ g : LGraph,
    (PyDict.keys (g.nodes ++ ns)).Nodup → ns.foldl (fun h p => h.addNode p.1 p.2) g = { g with nodes := g.nodes ++ ns } := by
  induction ns with
  | nil => intro g _; simp
  | cons p ps ih =>
    intro g h
    have hk : p.1 ∉ PyDict.keys g.nodes := by
      simp only [PyDict.keys, List.map_append, List.map_cons] at h
      have := (List.nodup_append.1 h).2.2
      intro hm
      exact this p.1 hm p.1 (by simp) rfl
    have h1 : g.addNode p.1 p.2 = { g with nodes := g.nodes ++ [p] } := by
      unfold addNode
      rw [(PyDict.get?_eq_none_iff _ _).2 hk, Option.getD_none, update_nil _ (ha p (by simp)), PyDict.set_of_not_mem _ _ _ hk]
    rw [List.foldl_cons, h1, ih (fun q hq => ha q (by simp [hq])) _ (by simpa using h)]
    simp

/-! ### edges -/

theorem joins_iff (u v : Int) (e : LEdge) : joins u v e = true ↔ (e.1 = u ∧ e.2.1 = v) ∨ (e.1 = v ∧ e.2.1 = u) := by
  simp [joins]

theorem joins_sameEnds (e f : LEdge) : joins e.1 e.2.1 f = true ↔ SameEnds f e := by
  rw [joins_iff]
  rfl

theorem addEdges (es : List LEdge) : ∀ g : LGraph,
    (∀ e ∈ es, e.1 ∈ names g ∧ e.2.1 ∈ names g) → ((g.edges ++ es).Pairwise fun e f => ¬ SameEnds e f) →
    es.foldl addEdge g = { g with edges := g.edges ++ es } := by
  induction es with
  | nil => intro g _ _; simp
  | cons e es ih =>
    intro g hn hp
    have h1 : g.addEdge e = { g with edges := g.edges ++ [e] } := by
      unfold addEdge
      have hu := (PyDict.get?_isSome_iff g.nodes e.1).2 (hn e (by simp)).1
      have hv := (PyDict.get?_isSome_iff g.nodes e.2.1).2 (hn e (by simp)).2
      dsimp only
      rw [if_pos hu, if_pos hv, if_neg]
      intro hc
      rw [List.any_eq_true] at hc
      obtain ⟨f, hf, hj⟩ := hc
      exact (List.pairwise_append.1 hp).2.2 f hf e (by simp) ((joins_sameEnds e f).1 hj)
    rw [List.foldl_cons, h1, ih]
    · simp
    · exact fun f hf => hn f (by simp [hf])
    · simpa using hp

theorem edgeData_of_mem (es : List LEdge) (hp : es.Pairwise fun e f => ¬ SameEnds e f) (e : LEdge) (he : e ∈ es) (u v : Int)
    (h : joins u v e = true) : (es.find? (joins u v)) = some e := by
  induction es with
  | nil => simp at he
  | cons f fs ih =>
    rw [List.pairwise_cons] at hp
    by_cases hf : joins u v f = true
    · rw [List.find?_cons_of_pos hf]
      rcases List.mem_cons.1 he with rfl | he
      · rfl
      · exfalso
        refine hp.1 e he ?_
        rw [joins_iff] at h hf
        unfold SameEnds
        rcases h with ⟨h1, h2⟩ | ⟨h1, h2⟩ <;> rcases hf with ⟨h3, h4⟩ | ⟨h3, h4⟩ <;> simp [h1, h2, h3, h4]
    · rw [List.find?_cons_of_neg (by simpa using hf)]
      rcases List.mem_cons.1 he with rfl | he
      · exact absurd h hf
      · exact ih hp.2 he

theorem relabel_eq (a b x : Int) : relabel a b x = Equiv.swap a b x := by
  unfold relabel
  rw [Equiv.swap_apply_def]

theorem relabel_relabel (a b x : Int) : relabel a b (relabel a b x) = x := by
  rw [relabel_eq, relabel_eq, Equiv.swap_apply_self]

/-- an edge with renamed ends -/
def relabelEdge (a b : Int) (e : LEdge) : LEdge := (relabel a b e.1, relabel a b e.2.1, e.2.2)

theorem joins_relabel (a b u v : Int) (e : LEdge) :
    joins u v (relabelEdge a b e) = joins (relabel a b u) (relabel a b v) e := by
  rw [Bool.eq_iff_iff, joins_iff, joins_iff]
  have h : ∀ x y, relabel a b x = y ↔ x = relabel a b y := by
    intro x y
    constructor
    · rintro rfl; rw [relabel_relabel]
    · rintro rfl; rw [relabel_relabel]
  simp only [relabelEdge, h]

theorem find_relabel (a b u v : Int) (es : List LEdge) :
    ((es.map (relabelEdge a b)).find? (joins u v)).map (fun e => e.2.2) =
      (es.find? (joins (relabel a b u) (relabel a b v))).map (fun e => e.2.2) := by
  induction es with
  | nil => rfl
  | cons e es ih =>
    rw [List.map_cons, List.find?_cons, List.find?_cons, joins_relabel]
    split
    · rfl
    · exact ih

/-! ### swapping attributes -/

theorem index_ok (ns : PyDict Int Attrs) (n : Int) (h : n ∈ PyDict.keys ns) :
    ∃ i, LGraph.index ns n = .ok i ∧ i < ns.length ∧ (PyDict.keys ns)[i]? = some n := by
  induction ns with
  | nil => simp [PyDict.keys] at h
  | cons p ps ih =>
    by_cases hp : p.1 = n
    · exact ⟨0, by simp [LGraph.index, hp], by simp, by simp [PyDict.keys, hp]⟩
    · have h' : n ∈ PyDict.keys ps := by
        simp only [PyDict.keys, List.map_cons, List.mem_cons] at h ⊢
        rcases h with h | h
        · exact absurd h.symm hp
        · exact h
      obtain ⟨i, h1, h2, h3⟩ := ih h'
      refine ⟨i + 1, by simp [LGraph.index, hp, h1, Except.map], by simpa using h2, ?_⟩
      simpa [PyDict.keys] using h3

theorem index_error (ns : PyDict Int Attrs) (n : Int) (h : n ∉ PyDict.keys ns) : LGraph.index ns n = .error .valueError := by
  induction ns with
  | nil => rfl
  | cons p ps ih =>
    simp only [PyDict.keys, List.map_cons, List.mem_cons, not_or] at h
    have hp : ¬ p.1 = n := fun e => h.1 e.symm
    simp [LGraph.index, hp, ih h.2, Except.map]

theorem attrsAt_setAttrAt (ns : PyDict Int Attrs) (i m : Nat) (k : String) (v : PVal) (hi : i < ns.length) :
    attrsAt (setAttrAt ns i k v) m = if m = i then PyDict.set (attrsAt ns i) k v else attrsAt ns m := by
  unfold attrsAt setAttrAt
  rw [List.getElem?_modify]
  by_cases h : i = m
  · subst h
    simp [hi]
  · rw [if_neg (fun e => h e.symm)]
    simp [h]

theorem setAttrAt_length (ns : PyDict Int Attrs) (i : Nat) (k : String) (v : PVal) : (setAttrAt ns i k v).length = ns.length := by
  simp [setAttrAt]

theorem setAttrAt_keys (ns : PyDict Int Attrs) (i : Nat) (k : String) (v : PVal) : PyDict.keys (setAttrAt ns i k v) = PyDict.keys ns := by
  unfold setAttrAt PyDict.keys
  apply List.ext_getElem?
  intro m
  simp only [List.getElem?_map, List.getElem?_modify]
  by_cases h : i = m
  · subst h; cases ns[i]? <;> simp
  · simp [h]

theorem getq_set (d : Attrs) (k k' : String) (v : PVal) : PyDict.get? (PyDict.set d k v) k' = if k' = k then some v else PyDict.get? d k' := by
  by_cases h : k' = k
  · subst h; rw [if_pos rfl, PyDict.get?_set_self]
  · rw [if_neg h, PyDict.get?_set_ne _ _ _ _ (fun e => h e.symm)]

/-- position `m` after exchanging positions `i` and `j` -/
def swapPos (i j m : Nat) : Nat := if m = i then j else if m = j then i else m

theorem swapAttrs_ok (i j : Nat) (ns : PyDict Int Attrs) (k : String) (hi : i < ns.length) (hj : j < ns.length)
    (ki : k ∈ PyDict.keys (attrsAt ns i)) (kj : k ∈ PyDict.keys (attrsAt ns j)) :
    ∃ ns', swapAttrs i j ns k = .ok ns' ∧ PyDict.keys ns' = PyDict.keys ns ∧ ns'.length = ns.length ∧
      (∀ m, PyDict.keys (attrsAt ns' m) = PyDict.keys (attrsAt ns m)) ∧
      ∀ m k', PyDict.get? (attrsAt ns' m) k' =
        if k' = k then PyDict.get? (attrsAt ns (swapPos i j m)) k' else PyDict.get? (attrsAt ns m) k' := by
  obtain ⟨va, hva⟩ := Option.isSome_iff_exists.1 ((PyDict.get?_isSome_iff _ _).2 ki)
  obtain ⟨vb, hvb⟩ := Option.isSome_iff_exists.1 ((PyDict.get?_isSome_iff _ _).2 kj)
  have hj' : j < (setAttrAt ns i k vb).length := by rw [setAttrAt_length]; exact hj
  refine ⟨setAttrAt (setAttrAt ns i k vb) j k va, ?_, ?_, ?_, ?_, ?_⟩
  · simp [swapAttrs, attr, hva, hvb, bind, Except.bind, pure, Except.pure]
  · rw [setAttrAt_keys, setAttrAt_keys]
  · rw [setAttrAt_length, setAttrAt_length]
  · intro m
    rw [attrsAt_setAttrAt _ _ _ _ _ hj', attrsAt_setAttrAt _ _ _ _ _ hi, attrsAt_setAttrAt _ _ _ _ _ hi]
    have e1 : PyDict.keys (PyDict.set (attrsAt ns i) k vb) = PyDict.keys (attrsAt ns i) := PyDict.keys_set_of_mem _ _ _ ki
    by_cases h : m = j
    · subst h
      rw [if_pos rfl]
      by_cases h' : m = i
      · subst h'
        rw [if_pos rfl, PyDict.keys_set_of_mem _ _ _ (by rw [e1]; exact ki), e1]
      · rw [if_neg h', PyDict.keys_set_of_mem _ _ _ kj]
    · rw [if_neg h]
      by_cases h' : m = i
      · subst h'; rw [if_pos rfl, e1]
      · rw [if_neg h']
  · intro m k'
    rw [attrsAt_setAttrAt _ _ _ _ _ hj', attrsAt_setAttrAt _ _ _ _ _ hi, attrsAt_setAttrAt _ _ _ _ _ hi]
    unfold swapPos
    by_cases hk : k' = k
    · subst hk
      rw [if_pos rfl]
      by_cases h : m = j
      · subst h
        rw [if_pos rfl, getq_set, if_pos rfl]
        by_cases h' : m = i
        · subst h'; rw [if_pos rfl]; exact hva.symm
        · rw [if_neg h', if_pos rfl]; exact hva.symm
      · rw [if_neg h]
        by_cases h' : m = i
        · subst h'; rw [if_pos rfl, if_pos rfl, getq_set, if_pos rfl]; exact hvb.symm
        · rw [if_neg h', if_neg h', if_neg h]
    · rw [if_neg hk]
      by_cases h : m = j
      · subst h
        rw [if_pos rfl, getq_set, if_neg hk]
        by_cases h' : m = i
        · subst h'; rw [if_pos rfl, getq_set, if_neg hk]
        · rw [if_neg h']
      · rw [if_neg h]
        by_cases h' : m = i
        · subst h'; rw [if_pos rfl, getq_set, if_neg hk]
        · rw [if_neg h']

theorem swapPos_swapPos (i j m : Nat) : swapPos i j (swapPos i j m) = m := by
  unfold swapPos; split_ifs <;> simp_all

theorem swapLoop_ok (i j : Nat) (ks : List String) : ∀ ns : PyDict Int Attrs, ks.Nodup → i < ns.length → j < ns.length →
    (∀ k ∈ ks, k ∈ PyDict.keys (attrsAt ns i) ∧ k ∈ PyDict.keys (attrsAt ns j)) →
    ∃ ns', ks.foldlM (swapAttrs i j) ns = .ok ns' ∧ PyDict.keys ns' = PyDict.keys ns ∧ ns'.length = ns.length ∧
      (∀ m, PyDict.keys (attrsAt ns' m) = PyDict.keys (attrsAt ns m)) ∧
      ∀ m k', PyDict.get? (attrsAt ns' m) k' =
        if k' ∈ ks then PyDict.get? (attrsAt ns (swapPos i j m)) k' else PyDict.get? (attrsAt ns m) k' := by
  induction ks with
  | nil => intro ns _ _ _ _; exact ⟨ns, rfl, rfl, rfl, fun _ => rfl, fun _ _ => by simp⟩
  | cons k ks ih =>
    intro ns hd hi hj hk
    rw [List.nodup_cons] at hd
    obtain ⟨n1, h1, h2, h3, h4, h5⟩ := swapAttrs_ok i j ns k hi hj (hk k (by simp)).1 (hk k (by simp)).2
    obtain ⟨n2, g1, g2, g3, g4, g5⟩ := ih n1 hd.2 (by rw [h3]; exact hi) (by rw [h3]; exact hj)
      (fun k' hk' => by rw [h4, h4]; exact hk k' (by simp [hk']))
    refine ⟨n2, ?_, by rw [g2, h2], by rw [g3, h3], fun m => by rw [g4, h4], ?_⟩
    · rw [List.foldlM_cons, h1]; exact g1
    · intro m k'
      rw [g5, h5, h5]
      by_cases e : k' = k
      · subst e
        rw [if_neg hd.1, if_pos rfl, if_pos (by simp)]
      · rw [if_neg e, if_neg e]
        by_cases e' : k' ∈ ks
        · rw [if_pos e', if_pos (by simp [e'])]
        · rw [if_neg e', if_neg (by simp [e, e'])]

theorem getq_of_pos (ns : PyDict Int Attrs) (hd : (PyDict.keys ns).Nodup) : ∀ (i : Nat) (n : Int), (PyDict.keys ns)[i]? = some n →
    PyDict.get? ns n = some (attrsAt ns i) := by
  induction ns with
  | nil => intro i n h; simp [PyDict.keys] at h
  | cons p ps ih =>
    intro i n h
    simp only [PyDict.keys, List.map_cons, List.nodup_cons] at hd
    cases i with
    | zero =>
      simp only [PyDict.keys, List.map_cons, List.getElem?_cons_zero, Option.some.injEq] at h
      simp [PyDict.get?, h, attrsAt]
    | succ i =>
      simp only [PyDict.keys, List.map_cons, List.getElem?_cons_succ] at h
      have hne : ¬ p.1 = n := by
        rintro rfl
        exact hd.1 (List.mem_of_getElem? h)
      have := ih hd.2 i n h
      simp only [PyDict.get?, hne, if_false, this, attrsAt, List.getElem?_cons_succ]

/-! ### the swapped graph -/

theorem value_of_pos (g : LGraph) (hg : (names g).Nodup) (i : Nat) (n : Int) (h : (names g)[i]? = some n) (k : String) :
    value g n k = PyDict.get? (attrsAt g.nodes i) k := by
  unfold value
  rw [getq_of_pos g.nodes hg i n h]
  rfl

theorem value_none (g : LGraph) (n : Int) (h : n ∉ names g) (k : String) : value g n k = none := by
  unfold value
  rw [(PyDict.get?_eq_none_iff _ _).2 h]
  rfl

theorem pos_unique {l : List Int} (hl : l.Nodup) {i j : Nat} {n : Int} (hi : l[i]? = some n) (hj : l[j]? = some n) : i = j := by
  obtain ⟨h1, e1⟩ := List.getElem?_eq_some_iff.1 hi
  obtain ⟨h2, e2⟩ := List.getElem?_eq_some_iff.1 hj
  exact (List.Nodup.getElem_inj_iff hl).1 (e1.trans e2.symm)

theorem swap_mem {l : List Int} {a b n : Int} (ha : a ∈ l) (hb : b ∈ l) : Equiv.swap a b n ∈ l ↔ n ∈ l := by
  rw [Equiv.swap_apply_def]
  split_ifs with h1 h2
  · subst h1; exact ⟨fun _ => ha, fun _ => hb⟩
  · subst h2; exact ⟨fun _ => hb, fun _ => ha⟩
  · exact Iff.rfl

theorem swap_pos {l : List Int} (hl : l.Nodup) {a b : Int} {i j : Nat} (hi : l[i]? = some a) (hj : l[j]? = some b) (m : Nat) (n : Int)
    (hm : l[m]? = some n) : l[swapPos i j m]? = some (Equiv.swap a b n) := by
  unfold swapPos
  rw [Equiv.swap_apply_def]
  by_cases h1 : m = i
  · subst h1
    have : n = a := by rw [hm] at hi; exact Option.some.inj hi
    rw [if_pos rfl, if_pos this, hj]
  · have h1' : ¬ n = a := by rintro rfl; exact h1 (pos_unique hl hm hi)
    rw [if_neg h1, if_neg h1']
    by_cases h2 : m = j
    · subst h2
      have : n = b := by rw [hm] at hj; exact Option.some.inj hj
      rw [if_pos rfl, if_pos this, hi]
    · have h2' : ¬ n = b := by rintro rfl; exact h2 (pos_unique hl hm hj)
      rw [if_neg h2, if_neg h2', hm]

theorem swapNodes_ok (g : LGraph) (hg : Wf g) (hu : Uniform g) (a b : Int) (ha : a ∈ names g) (hb : b ∈ names g) :
    ∃ h, g.swapNodes a b = .ok h ∧ Wf h ∧ Uniform h ∧ Renamed (Equiv.swap a b) g h ∧ h.owner = none := by
  obtain ⟨i, i1, i2, i3⟩ := index_ok g.nodes a ha
  obtain ⟨j, j1, j2, j3⟩ := index_ok g.nodes b hb
  have hpos : 0 < g.nodes.length := by omega
  obtain ⟨n0, hn0⟩ : ∃ n, (names g)[0]? = some n := by
    refine ⟨(names g)[0]'(by simpa [names, PyDict.keys] using hpos), ?_⟩
    rw [List.getElem?_eq_getElem]
  have hn0m : n0 ∈ names g := List.mem_of_getElem? hn0
  set ks := PyDict.keys (attrsAt g.nodes 0) with hks
  have attrs_nodup : ∀ m, (PyDict.keys (attrsAt g.nodes m)).Nodup := by
    intro m
    unfold attrsAt
    cases hm : g.nodes[m]? with
    | none => simp [PyDict.keys]
    | some p => exact hg.attrs p (List.mem_of_getElem? hm)
  have kiff : ∀ (m : Nat) (n : Int), (names g)[m]? = some n → ∀ k, k ∈ PyDict.keys (attrsAt g.nodes m) ↔ k ∈ ks := by
    intro m n hm k
    rw [hks, ← PyDict.get?_isSome_iff, ← PyDict.get?_isSome_iff, ← value_of_pos g hg.nodup m n hm,
      ← value_of_pos g hg.nodup 0 n0 hn0]
    exact ⟨hu n (List.mem_of_getElem? hm) n0 hn0m k, hu n0 hn0m n (List.mem_of_getElem? hm) k⟩
  obtain ⟨ns, l1, l2, l3, l4, l5⟩ := swapLoop_ok i j ks g.nodes (attrs_nodup 0) i2 j2
    (fun k hk => ⟨(kiff i a i3 k).2 hk, (kiff j b j3 k).2 hk⟩)
  have hswap : g.swapNodeAttributes a b = .ok ns := by
    unfold swapNodeAttributes
    rw [i1]
    simp only [bind, Except.bind]
    rw [j1]
    exact l1
  have nsattrs : ∀ p ∈ ns, (PyDict.keys p.2).Nodup := by
    intro p hp
    obtain ⟨m, hm⟩ := List.mem_iff_getElem?.1 hp
    have : attrsAt ns m = p.2 := by unfold attrsAt; rw [hm]; rfl
    rw [← this, l4]
    exact attrs_nodup m
  have hnew := addNodes ns nsattrs {} (by simpa using l2 ▸ hg.nodup)
  simp only [List.nil_append] at hnew
  have hzip : ((updateList (g.edges.map fun e : LEdge => (e.1, e.2.1)) a b).zip
      (g.edges.map fun e : LEdge => (g.edgeData e.1 e.2.1).getD [])).map
        (fun p : (Int × Int) × PyDict String Int => ((p.1.1, p.1.2, p.2) : LEdge)) = g.edges.map (relabelEdge a b) := by
    unfold updateList
    rw [List.map_map, List.zip_map', List.map_map]
    apply List.map_congr_left
    intro e he
    have hd : g.edgeData e.1 e.2.1 = some e.2.2 := by
      unfold edgeData
      rw [edgeData_of_mem g.edges hg.simple e he e.1 e.2.1 (by simp [joins])]
      rfl
    simp [relabelEdge, hd]
  have hnm : names (⟨ns, g.edges.map (relabelEdge a b), none⟩ : LGraph) = names g := l2
  have rl : ∀ x, x ∈ names g → relabel a b x ∈ names g := by
    intro x hx
    rw [relabel_eq]
    exact (swap_mem ha hb).2 hx
  have hfold : (g.edges.map (relabelEdge a b)).foldl addEdge ⟨ns, [], none⟩ = ⟨ns, g.edges.map (relabelEdge a b), none⟩ := by
    rw [addEdges]
    · simp
    · intro e he
      obtain ⟨f, hf, rfl⟩ := List.mem_map.1 he
      have := hg.ends f hf
      have hns : names (⟨ns, [], none⟩ : LGraph) = names g := l2
      rw [hns]
      exact ⟨rl _ this.1, rl _ this.2⟩
    · simp only [List.nil_append]
      rw [List.pairwise_map]
      refine hg.simple.imp ?_
      intro e f hne hs
      refine hne ?_
      have inj : ∀ x y, relabel a b x = relabel a b y → x = y := by
        intro x y hxy
        rw [relabel_eq, relabel_eq] at hxy
        exact (Equiv.swap a b).injective hxy
      rcases hs with ⟨h1, h2⟩ | ⟨h1, h2⟩
      · exact Or.inl ⟨inj _ _ h1, inj _ _ h2⟩
      · exact Or.inr ⟨inj _ _ h1, inj _ _ h2⟩
  have hval : ∀ n k, value (⟨ns, g.edges.map (relabelEdge a b), none⟩ : LGraph) n k = value g (Equiv.swap a b n) k := by
    intro n k
    by_cases hn : n ∈ names g
    · obtain ⟨m, hm⟩ := List.mem_iff_getElem?.1 hn
      rw [value_of_pos _ (by rw [hnm]; exact hg.nodup) m n (by rw [hnm]; exact hm),
        value_of_pos g hg.nodup _ _ (swap_pos hg.nodup i3 j3 m n hm)]
      change PyDict.get? (attrsAt ns m) k = _
      rw [l5]
      by_cases hk : k ∈ ks
      · rw [if_pos hk]
      · rw [if_neg hk]
        rw [(PyDict.get?_eq_none_iff _ _).2 (fun hc => hk ((kiff m n hm k).1 hc)),
          (PyDict.get?_eq_none_iff _ _).2 (fun hc => hk ((kiff _ _ (swap_pos hg.nodup i3 j3 m n hm) k).1 hc))]
    · rw [value_none _ n (by rw [hnm]; exact hn), value_none g _ (fun hc => hn ((swap_mem ha hb).1 hc))]
  refine ⟨⟨ns, g.edges.map (relabelEdge a b), none⟩, ?_, ⟨by rw [hnm]; exact hg.nodup, nsattrs, ?_, ?_⟩, ?_, ⟨hnm, hval, ?_⟩, rfl⟩
  · unfold swapNodes
    rw [hswap]
    simp only [bind, Except.bind, pure, Except.pure]
    rw [hnew, ← hfold, ← hzip, List.foldl_map]
  · change (g.edges.map (relabelEdge a b)).Pairwise _
    rw [List.pairwise_map]
    refine hg.simple.imp ?_
    intro e f hne hs
    refine hne ?_
    have inj : ∀ x y, relabel a b x = relabel a b y → x = y := by
      intro x y hxy
      rw [relabel_eq, relabel_eq] at hxy
      exact (Equiv.swap a b).injective hxy
    rcases hs with ⟨h1, h2⟩ | ⟨h1, h2⟩
    · exact Or.inl ⟨inj _ _ h1, inj _ _ h2⟩
    · exact Or.inr ⟨inj _ _ h1, inj _ _ h2⟩
  · intro e he
    obtain ⟨f, hf, rfl⟩ := List.mem_map.1 he
    rw [hnm]
    exact ⟨rl _ (hg.ends f hf).1, rl _ (hg.ends f hf).2⟩
  · intro n hn m hm k hk
    rw [hnm] at hn hm
    rw [hval] at hk ⊢
    exact hu _ ((swap_mem ha hb).2 hn) _ ((swap_mem ha hb).2 hm) k hk
  · intro u v
    change ((g.edges.map (relabelEdge a b)).find? (joins u v)).map _ = _
    rw [find_relabel, relabel_eq, relabel_eq]
    rfl

end Qudits

namespace Qudits
open LGraph Spec

/-! ### construction -/

/-- the last value given for `n`, starting from `v` -/
def lastVal (v : Option PVal) (n : Int) (values : List (Int × PVal)) : Option PVal :=
  values.foldl (fun acc p => if p.1 = n then some p.2 else acc) v

theorem setNode_ok (g : LGraph) (hg : Wf g) (values : List (Int × PVal)) (name : String) :
    ∃ ns, g.setNodeAttributes values name = { g with nodes := ns } ∧ PyDict.keys ns = names g ∧
      (∀ p ∈ ns, (PyDict.keys p.2).Nodup) ∧
      ∀ n k, value { g with nodes := ns } n k = if k = name ∧ n ∈ names g then lastVal (value g n k) n values else value g n k := by
  have key : ∀ (values : List (Int × PVal)) (ns0 : PyDict Int Attrs), (PyDict.keys ns0).Nodup → (∀ p ∈ ns0, (PyDict.keys p.2).Nodup) →
      ∃ ns, values.foldl (fun ns p =>
          match PyDict.get? ns p.1 with
          | some a => PyDict.set ns p.1 (PyDict.set a name p.2)
          | none => ns) ns0 = ns ∧ PyDict.keys ns = PyDict.keys ns0 ∧ (∀ p ∈ ns, (PyDict.keys p.2).Nodup) ∧
        ∀ n k, (PyDict.get? ns n).bind (fun a => PyDict.get? a k) =
          if k = name ∧ n ∈ PyDict.keys ns0 then lastVal ((PyDict.get? ns0 n).bind (fun a => PyDict.get? a k)) n values
          else (PyDict.get? ns0 n).bind (fun a => PyDict.get? a k) := by
    intro values
    induction values with
    | nil => intro ns0 _ h0; exact ⟨ns0, rfl, rfl, h0, fun n k => by simp [lastVal]⟩
    | cons p ps ih =>
      intro ns0 hd h0
      rw [List.foldl_cons]
      cases hp : PyDict.get? ns0 p.1 with
      | none =>
        simp only []
        obtain ⟨ns, e1, e2, e3, e4⟩ := ih ns0 hd h0
        refine ⟨ns, e1, e2, e3, ?_⟩
        intro n k
        rw [e4]
        by_cases hc : k = name ∧ n ∈ PyDict.keys ns0
        · rw [if_pos hc, if_pos hc]
          have hne : ¬ p.1 = n := by
            rintro rfl
            exact (PyDict.get?_eq_none_iff _ _).1 hp hc.2
          simp [lastVal, hne]
        · rw [if_neg hc, if_neg hc]
      | some a =>
        simp only []
        have hmem : p.1 ∈ PyDict.keys ns0 := (PyDict.get?_isSome_iff _ _).1 (by rw [hp]; rfl)
        have hk := PyDict.keys_set_of_mem ns0 p.1 (PyDict.set a name p.2) hmem
        have ha : (PyDict.keys a).Nodup := by
          have : ∀ (l : PyDict Int Attrs), PyDict.get? l p.1 = some a → (p.1, a) ∈ l := by
            intro l
            induction l with
            | nil => intro h; simp [PyDict.get?] at h
            | cons q qs ih =>
              intro h
              by_cases hq : q.1 = p.1
              · simp only [PyDict.get?, hq, if_true] at h
                obtain ⟨q1, q2⟩ := q
                simp only at hq
                simp only [Option.some.injEq] at h
                subst hq; subst h
                simp
              · simp only [PyDict.get?, hq, if_false] at h
                exact List.mem_cons_of_mem _ (ih h)
          exact h0 _ (this ns0 hp)
        have h1 : ∀ q ∈ PyDict.set ns0 p.1 (PyDict.set a name p.2), (PyDict.keys q.2).Nodup := by
          have : ∀ l : PyDict Int Attrs, (∀ q ∈ l, (PyDict.keys q.2).Nodup) →
              ∀ q ∈ PyDict.set l p.1 (PyDict.set a name p.2), (PyDict.keys q.2).Nodup := by
            intro l
            induction l with
            | nil =>
              intro _ q hq
              simp only [PyDict.set, List.mem_singleton] at hq
              subst hq
              exact PyDict.keys_nodup_set _ _ _ ha
            | cons r rs ih =>
              intro hl q hq
              by_cases hr : r.1 = p.1
              · simp only [PyDict.set, hr, if_true] at hq
                rcases List.mem_cons.1 hq with rfl | hq
                · exact PyDict.keys_nodup_set _ _ _ ha
                · exact hl q (by simp [hq])
              · simp only [PyDict.set, hr, if_false] at hq
                rcases List.mem_cons.1 hq with rfl | hq
                · exact hl _ (by simp)
                · exact ih (fun q hq => hl q (by simp [hq])) q hq
          exact this ns0 h0
        obtain ⟨ns, e1, e2, e3, e4⟩ := ih (PyDict.set ns0 p.1 (PyDict.set a name p.2)) (by rw [hk]; exact hd) h1
        refine ⟨ns, e1, by rw [e2, hk], e3, ?_⟩
        intro n k
        rw [e4, hk]
        by_cases hn : n = p.1
        · subst hn
          rw [PyDict.get?_set_self, hp]
          simp only [Option.bind_some]
          by_cases hkn : k = name
          · subst hkn
            rw [PyDict.get?_set_self, if_pos ⟨rfl, hmem⟩, if_pos ⟨rfl, hmem⟩]
            simp [lastVal]
          · rw [if_neg (fun h => hkn h.1), if_neg (fun h => hkn h.1), getq_set, if_neg hkn]
        · rw [PyDict.get?_set_ne _ _ _ _ (fun e => hn e.symm)]
          have : lastVal ((PyDict.get? ns0 n).bind fun a => PyDict.get? a k) n (p :: ps) =
              lastVal ((PyDict.get? ns0 n).bind fun a => PyDict.get? a k) n ps := by
            have hne : ¬ p.1 = n := fun e => hn e.symm
            simp [lastVal, hne]
          rw [this]
  obtain ⟨ns, e1, e2, e3, e4⟩ := key values g.nodes hg.nodup hg.attrs
  refine ⟨ns, ?_, e2, e3, e4⟩
  subst e1
  rfl

theorem lastVal_not_mem (v : Option PVal) (n : Int) (values : List (Int × PVal)) (h : n ∉ values.map Prod.fst) : lastVal v n values = v := by
  induction values generalizing v with
  | nil => rfl
  | cons p ps ih =>
    simp only [List.map_cons, List.mem_cons, not_or] at h
    have : ¬ p.1 = n := fun e => h.1 e.symm
    change lastVal (if p.1 = n then some p.2 else v) n ps = v
    rw [if_neg this]
    exact ih v h.2

theorem lastVal_const (v : Option PVal) (n : Int) (l : List Int) (x : PVal) (h : n ∈ l) :
    lastVal v n (l.map fun n : Int => (n, x)) = some x := by
  induction l generalizing v with
  | nil => simp at h
  | cons m l ih =>
    change lastVal (if m = n then some x else v) n (l.map fun n : Int => (n, x)) = some x
    by_cases hn : n ∈ l
    · exact ih _ hn
    · rcases List.mem_cons.1 h with rfl | h
      · rw [if_pos rfl, lastVal_not_mem]
        simpa using hn
      · exact absurd h hn

theorem lastVal_zip (v : Option PVal) : ∀ (l m : List Int) (i : Nat) (n k : Int), l.Nodup → l[i]? = some n → m[i]? = some k →
    lastVal v n ((l.zip m).map fun p : Int × Int => (p.1, .int p.2)) = some (.int k) := by
  intro l
  induction l generalizing v with
  | nil => intro m i n k _ h; simp at h
  | cons a l ih =>
    intro m i n k hd h1 h2
    rw [List.nodup_cons] at hd
    cases m with
    | nil => simp at h2
    | cons b m =>
      cases i with
      | zero =>
        simp only [List.getElem?_cons_zero, Option.some.injEq] at h1 h2
        subst h1; subst h2
        change lastVal (if a = a then some (.int b) else v) a _ = _
        rw [if_pos rfl, lastVal_not_mem]
        intro hc
        simp only [List.map_map, List.mem_map, Function.comp] at hc
        obtain ⟨p, hp, he⟩ := hc
        exact hd.1 (he ▸ (List.of_mem_zip hp).1)
      | succ i =>
        simp only [List.getElem?_cons_succ] at h1 h2
        exact ih _ m i n k hd.2 h1 h2

theorem addNodesNil (nodes : List Int) (hd : nodes.Nodup) (o : Option (Int × Nat)) :
    nodes.foldl (fun g n => g.addNode n []) ({ owner := o } : LGraph) = ⟨nodes.map fun n : Int => (n, []), [], o⟩ := by
  have h := addNodes (nodes.map fun n : Int => (n, [])) (by simp [PyDict.keys]) { owner := o }
    (by simpa [PyDict.keys, Function.comp_def] using hd)
  rw [List.foldl_map] at h
  simpa using h

theorem create_ok (edges : List LEdge) (nodes mapping l : List Int) (o : Option (Int × Nat)) (hd : nodes.Nodup)
    (hl : mapping.length = nodes.length) (h0 : nodes ≠ []) (he : ∀ e ∈ edges, e.1 ∈ nodes ∧ e.2.1 ∈ nodes)
    (hs : edges.Pairwise fun e f => ¬ SameEnds e f) :
    Wf (create edges nodes mapping (some l) o) ∧ names (create edges nodes mapping (some l) o) = nodes ∧
    (create edges nodes mapping (some l) o).edges = edges ∧
    (∀ (i : Nat) (n k : Int), nodes[i]? = some n → mapping[i]? = some k →
      value (create edges nodes mapping (some l) o) n "lpmap" = some (.int k)) ∧
    (∀ n ∈ nodes, value (create edges nodes mapping (some l) o) n "level" = some (.str (if n ∈ l then "i" else "r"))) ∧
    (∀ n k, k ≠ "lpmap" → k ≠ "level" → value (create edges nodes mapping (some l) o) n k = none) := by
  have hm : mapping ≠ [] := by
    rintro rfl
    exact h0 (List.length_eq_zero_iff.1 hl.symm)
  set g1 : LGraph := ⟨nodes.map fun n : Int => (n, []), [], o⟩ with hg1
  have n1 : names g1 = nodes := by simp [names, PyDict.keys, hg1, Function.comp_def]
  have w1 : Wf g1 := ⟨by rw [n1]; exact hd, by simp [hg1, PyDict.keys], by simp [hg1], by simp [hg1]⟩
  have v1 : ∀ n k, value g1 n k = none := by
    intro n k
    unfold value
    cases hc : PyDict.get? g1.nodes n with
    | none => rfl
    | some a =>
      have : PyDict.get? g1.nodes n = (PyDict.get? (nodes.map fun n : Int => (n, ())) n).map fun _ => ([] : Attrs) := by
        rw [← PyDict.get?_map_snd]; simp [hg1, Function.comp_def]
      rw [this] at hc
      cases hq : PyDict.get? (nodes.map fun n : Int => (n, ())) n with
      | none => rw [hq] at hc; cases hc
      | some u => rw [hq] at hc; simp only [Option.map_some, Option.some.injEq] at hc; subst hc; rfl
  obtain ⟨ns2, a1, a2, a3, a4⟩ := setNode_ok g1 w1 ((nodes.zip mapping).map fun p : Int × Int => (p.1, .int p.2)) "lpmap"
  set g2 : LGraph := { g1 with nodes := ns2 } with hg2
  have n2 : names g2 = nodes := a2.trans n1
  have hf : edges.foldl addEdge g2 = { g2 with edges := edges } := by
    have e0 : g2.edges = [] := rfl
    rw [addEdges edges g2 (by rw [n2]; exact he) (by rw [e0]; simpa using hs), e0, List.nil_append]
  set g3 : LGraph := { g2 with edges := edges } with hg3
  have n3 : names g3 = nodes := n2
  have w3 : Wf g3 := ⟨by rw [n3]; exact hd, a3, hs, by rw [n3]; exact he⟩
  obtain ⟨ns4, b1, b2, b3, b4⟩ := setNode_ok g3 w3 (((PyDict.keys g3.nodes).filter fun x => x ∉ l).map fun n : Int => (n, .str "r")) "level"
  set g4 : LGraph := { g3 with nodes := ns4 } with hg4
  have n4 : names g4 = nodes := b2.trans n3
  have w4 : Wf g4 := ⟨by rw [n4]; exact hd, b3, hs, by rw [n4]; exact he⟩
  obtain ⟨ns5, c1, c2, c3, c4⟩ := setNode_ok g4 w4 (l.map fun n : Int => (n, .str "i")) "level"
  set g5 : LGraph := { g4 with nodes := ns5 } with hg5
  have n5 : names g5 = nodes := c2.trans n4
  have hfin : create edges nodes mapping (some l) o = g5 := by
    unfold create
    simp only []
    rw [addNodesNil nodes hd o, if_neg hm, a1, hf]
    unfold defineStates
    rw [b1, c1]
  rw [hfin]
  have hv : ∀ n k, value g3 n k = value g2 n k := fun n k => rfl
  refine ⟨⟨by rw [n5]; exact hd, c3, hs, by rw [n5]; exact he⟩, n5, rfl, ?_, ?_, ?_⟩
  · intro i n k hn hk
    rw [c4, if_neg (fun h => absurd h.1 (by decide)), b4, if_neg (fun h => absurd h.1 (by decide)), hv, a4,
      if_pos ⟨rfl, by rw [n1]; exact List.mem_of_getElem? hn⟩]
    exact lastVal_zip _ nodes mapping i n k hd hn hk
  · intro n hn
    rw [c4, if_pos ⟨rfl, by rw [n4]; exact hn⟩]
    by_cases hl : n ∈ l
    · rw [if_pos hl, lastVal_const _ _ _ _ hl]
    · rw [if_neg hl, lastVal_not_mem _ _ _ (by simpa using hl), b4, if_pos ⟨rfl, by rw [n3]; exact hn⟩, lastVal_const]
      simp only [List.mem_filter, decide_eq_true_eq]
      exact ⟨by rw [show PyDict.keys g3.nodes = names g3 from rfl, n3]; exact hn, by simpa using hl⟩
  · intro n k h1 h2
    rw [c4, if_neg (fun h => h2 h.1), b4, if_neg (fun h => h2 h.1), hv, a4, if_neg (fun h => h1 h.1), v1]

theorem setPhase_ok (g : LGraph) (n : Int) (x : ℝ) (hn : n ∈ names g) :
    ∃ h, g.setPhase n x = .ok h ∧ names h = names g ∧ h.edges = g.edges ∧ h.owner = g.owner ∧
      ∀ m k, value h m k = if m = n ∧ k = "phase_storage" then some (.flt x) else value g m k := by
  obtain ⟨a, ha⟩ := Option.isSome_iff_exists.1 ((PyDict.get?_isSome_iff g.nodes n).2 hn)
  refine ⟨{ g with nodes := PyDict.set g.nodes n (PyDict.set a "phase_storage" (.flt x)) }, by unfold setPhase node; rw [ha]; rfl,
    PyDict.keys_set_of_mem _ _ _ hn, rfl, rfl, ?_⟩
  intro m k
  unfold value
  dsimp only
  by_cases hm : m = n
  · subst hm
    rw [PyDict.get?_set_self, ha, Option.bind_some, Option.bind_some, getq_set]
    by_cases hk : k = "phase_storage"
    · rw [if_pos hk, if_pos ⟨rfl, hk⟩]
    · rw [if_neg hk, if_neg (fun h => hk h.2)]
  · rw [PyDict.get?_set_ne _ _ _ _ (fun h => hm h.symm), if_neg (fun h => hm h.1)]

theorem phase_ok (g : LGraph) (n : Int) (x : ℝ) (h : value g n "phase_storage" = some (.flt x)) : g.phase n = .ok x := by
  unfold value at h
  unfold phase node
  cases ha : PyDict.get? g.nodes n with
  | none => rw [ha] at h; cases h
  | some a =>
    rw [ha, Option.bind_some] at h
    simp [bind, Except.bind, attr, h, pure, Except.pure]

end Qudits
