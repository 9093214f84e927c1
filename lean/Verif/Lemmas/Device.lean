import Verif.Lemmas.Routing
namespace Qudits
open LGraph Spec Matrix LocalQR

variable {d : Nat} {g : LGraph} {lp : Equiv.Perm (Fin d)}

theorem Spec.Device.mem_iff (h : Device d g lp) (n : Int) : n ∈ Spec.names g ↔ ∃ i : Fin d, n = (i : Nat) := by
  rw [h.names.mem_iff, List.mem_map]
  constructor
  · rintro ⟨i, hi, rfl⟩
    exact ⟨⟨i, List.mem_range.1 hi⟩, rfl⟩
  · rintro ⟨i, rfl⟩
    exact ⟨i, List.mem_range.2 i.isLt, rfl⟩

theorem Spec.Device.mem (h : Device d g lp) (i : Fin d) : ((i : Nat) : Int) ∈ Spec.names g := (h.mem_iff _).2 ⟨i, rfl⟩

theorem Spec.Device.lpmap (h : Device d g lp) (i : Fin d) : g.lpmap (i : Nat) = .ok ((lp i : Fin d) : Nat) := by
  have hv := h.lp i
  unfold value at hv
  unfold LGraph.lpmap node
  cases ha : PyDict.get? g.nodes ((i : Nat) : Int) with
  | none => rw [ha] at hv; cases hv
  | some a =>
    rw [ha, Option.bind_some] at hv
    simp [bind, Except.bind, attr, hv, pure, Except.pure]

/-- the value of an attribute, read from the list of nodes -/
theorem value_of_mem (hn : (Spec.names g).Nodup) (p : Int × Attrs) (hp : p ∈ g.nodes) (k : String) : value g p.1 k = PyDict.get? p.2 k := by
  obtain ⟨i, hi⟩ := List.mem_iff_getElem?.1 hp
  have h1 : (Spec.names g)[i]? = some p.1 := by simp [Spec.names, PyDict.keys, hi]
  rw [value_of_pos g hn i p.1 h1]
  simp [attrsAt, hi]

theorem levelNodes_aux (s : String) (ns : PyDict Int Attrs) (acc : List Int)
    (h : ∀ p ∈ ns, ∃ t, PyDict.get? p.2 "level" = some (.str t)) :
    ∃ L, ns.foldlM (fun acc p => do
      let v ← attr p.2 "level"
      pure (match v with
        | .str t => if t = s then acc ++ [p.1] else acc
        | _ => acc)) acc = (.ok L : Except PyErr (List Int)) ∧
      ∀ n, n ∈ L ↔ n ∈ acc ∨ ∃ p ∈ ns, p.1 = n ∧ PyDict.get? p.2 "level" = some (.str s) := by
  induction ns generalizing acc with
  | nil => exact ⟨acc, rfl, by simp⟩
  | cons p ps ih =>
    obtain ⟨t, ht⟩ := h p (by simp)
    obtain ⟨L, h1, h2⟩ := ih (if t = s then acc ++ [p.1] else acc) (fun q hq => h q (by simp [hq]))
    refine ⟨L, ?_, ?_⟩
    · rw [List.foldlM_cons]
      simp only [attr, ht, bind, Except.bind, pure, Except.pure]
      exact h1
    · intro n
      rw [h2]
      by_cases hts : t = s
      · subst hts
        rw [if_pos rfl, List.mem_append, List.mem_singleton, or_assoc]
        constructor
        · rintro (h' | rfl | ⟨q, hq, h'⟩)
          · exact Or.inl h'
          · exact Or.inr ⟨p, by simp, rfl, ht⟩
          · exact Or.inr ⟨q, by simp [hq], h'⟩
        · rintro (h' | ⟨q, hq, h'⟩)
          · exact Or.inl h'
          · rcases List.mem_cons.1 hq with rfl | hq
            · exact Or.inr (Or.inl h'.1.symm)
            · exact Or.inr (Or.inr ⟨q, hq, h'⟩)
      · rw [if_neg hts]
        constructor
        · rintro (h' | ⟨q, hq, h'⟩)
          · exact Or.inl h'
          · exact Or.inr ⟨q, by simp [hq], h'⟩
        · rintro (h' | ⟨q, hq, h'⟩)
          · exact Or.inl h'
          · rcases List.mem_cons.1 hq with rfl | hq
            · rw [ht] at h'
              simp only [Option.some.injEq, PVal.str.injEq] at h'
              exact absurd h'.2 hts
            · exact Or.inr ⟨q, hq, h'⟩

theorem Spec.Device.levelNodes (h : Device d g lp) (s : String) :
    ∃ L, g.levelNodes s = .ok L ∧ ∀ n, n ∈ L ↔ ∃ i : Fin d, n = (i : Nat) ∧ value g (i : Nat) "level" = some (.str s) := by
  obtain ⟨L, h1, h2⟩ := levelNodes_aux s g.nodes [] (by
    intro p hp
    obtain ⟨i, hi⟩ := (h.mem_iff p.1).1 (List.mem_map_of_mem hp)
    obtain ⟨t, ht⟩ := h.level i
    rw [← hi, value_of_mem h.wf.nodup p hp] at ht
    exact ⟨t, ht⟩)
  refine ⟨L, h1, ?_⟩
  intro n
  rw [h2]
  constructor
  · rintro (h' | ⟨p, hp, rfl, hv⟩)
    · cases h'
    · obtain ⟨i, hi⟩ := (h.mem_iff p.1).1 (List.mem_map_of_mem hp)
      refine ⟨i, hi, ?_⟩
      rw [← hi, value_of_mem h.wf.nodup p hp, hv]
  · rintro ⟨i, rfl, hv⟩
    obtain ⟨p, hp, hpi⟩ := List.mem_map.1 (h.mem i)
    refine Or.inr ⟨p, hp, hpi, ?_⟩
    rw [← value_of_mem h.wf.nodup p hp, hpi, hv]

theorem Spec.Device.fstInode (h : Device d g lp) :
    ∃ i : Fin d, g.fstInode = .ok ((i : Nat) : Int) := by
  obtain ⟨L, h1, h2⟩ := h.levelNodes "i"
  obtain ⟨j, hj⟩ := h.start
  unfold LGraph.fstInode
  rw [h1]
  cases L with
  | nil => exact absurd ((h2 j).2 ⟨j, rfl, hj⟩) (by simp)
  | cons n ns =>
    obtain ⟨i, hi, _⟩ := (h2 n).1 (by simp)
    exact ⟨i, by rw [← hi]; rfl⟩

theorem Spec.Device.isIrnode (h : Device d g lp) (n : Int) : ∃ b, g.isIrnode n = .ok b := by
  obtain ⟨L, h1, _⟩ := h.levelNodes "r"
  unfold LGraph.isIrnode
  rw [h1]
  exact ⟨_, rfl⟩

theorem Spec.Device.hasPhases (h : Device d g lp) :
    (g.hasPhases = .ok true ∧ ∀ i : Fin d, ∃ x, value g (i : Nat) "phase_storage" = some (.flt x)) ∨
    (g.hasPhases = .ok false ∧ ∀ i : Fin d, value g (i : Nat) "phase_storage" = none) := by
  obtain ⟨i, hi⟩ := h.fstInode
  have hm := h.mem i
  obtain ⟨a, ha⟩ := Option.isSome_iff_exists.1 ((PyDict.get?_isSome_iff g.nodes _).2 hm)
  have hv : value g (i : Nat) "phase_storage" = PyDict.get? a "phase_storage" := by
    unfold value; rw [ha, Option.bind_some]
  have hh : g.hasPhases = .ok (PyDict.get? a "phase_storage").isSome := by
    unfold LGraph.hasPhases
    rw [hi]
    simp only [bind, Except.bind, node]
    rw [ha]
    rfl
  rw [hh, ← hv]
  by_cases hs : (value g (i : Nat) "phase_storage").isSome
  · left
    refine ⟨by rw [hs], ?_⟩
    intro j
    obtain ⟨v, hv'⟩ := Option.isSome_iff_exists.1 (h.uniform _ hm _ (h.mem j) _ hs)
    obtain ⟨x, rfl⟩ := h.phases j v hv'
    exact ⟨x, hv'⟩
  · right
    refine ⟨by simp only [Bool.not_eq_true] at hs; rw [hs], ?_⟩
    intro j
    by_contra hc
    exact hs (h.uniform _ (h.mem j) _ hm _ (Option.isSome_iff_ne_none.2 hc))

theorem joined_ends {u v : Int} (hw : Wf g) (hj : Joined g u v) : u ∈ names g ∧ v ∈ names g := by
  unfold Spec.Joined edgeData at hj
  rw [Option.isSome_map] at hj
  obtain ⟨e, he⟩ := Option.isSome_iff_exists.1 hj
  have h1 := hw.ends e (List.mem_of_find?_eq_some he)
  rcases (joins_iff u v e).1 (List.find?_some he) with ⟨rfl, rfl⟩ | ⟨rfl, rfl⟩
  · exact h1
  · exact h1.symm

theorem Spec.Device.distance (h : Device d g lp) {sp : PathFinder} (hsp : FindsPaths sp) (i j : Fin d) :
    ∃ k, g.distanceNodes sp (i : Nat) (j : Nat) = .ok k ∧ 0 ≤ k := by
  obtain ⟨p, h1, h2⟩ := hsp g _ _ h.wf (h.mem i) (h.conn i j)
  unfold distanceNodes
  rw [h1]
  refine ⟨_, rfl, ?_⟩
  have : p ≠ [] := by
    rintro rfl
    have := h2.first
    simp at this
  have := List.length_pos_iff.2 this
  omega

theorem thetaCost_nonneg (t : ℝ) : 0 ≤ thetaCost t := by
  unfold thetaCost
  positivity

theorem Spec.Device.cost (h : Device d g lp) {sp : PathFinder} (hsp : FindsPaths sp) (r : RGate) (i j : Fin d) (hi : r.origA = (i : Nat))
    (hj : r.origB = (j : Nat)) : ∃ x, rotationCost sp r g = .ok x ∧ thetaCost r.par.theta ≤ x := by
  obtain ⟨b1, e1⟩ := h.isIrnode r.origA
  obtain ⟨b2, e2⟩ := h.isIrnode r.origB
  obtain ⟨f, e3⟩ := h.fstInode
  obtain ⟨k1, e4, p4⟩ := h.distance hsp f i
  obtain ⟨k2, e5, p5⟩ := h.distance hsp f j
  unfold rotationCost
  rw [e1, e2, e3, hi, hj]
  simp only [bind, Except.bind, pure, Except.pure]
  rw [e4, e5]
  simp only []
  split_ifs
  · refine ⟨_, rfl, ?_⟩
    have h0 := thetaCost_nonneg r.par.theta
    have h1 : (1 : ℝ) ≤ ((min k1 k2 + 1 : Int) : ℝ) := by
      have : (1 : Int) ≤ min k1 k2 + 1 := by
        have := le_min p4 p5
        omega
      exact_mod_cast this
    nlinarith
  · exact ⟨_, rfl, le_refl _⟩

theorem findLogic_aux (a b : Int) (f : Int → Int) (ns : PyDict Int Attrs) (s : Int × Int)
    (hl : ∀ p ∈ ns, PyDict.get? p.2 "lpmap" = some (.int (f p.1))) :
    ∃ t, ns.foldlM (fun s p => do
      let v ← attr p.2 "lpmap"
      pure (if isLevel v a then p.1 else s.1, if isLevel v b then p.1 else s.2)) s = (.ok t : Except PyErr (Int × Int)) ∧
      (∀ n, n ∈ PyDict.keys ns → f n = a → (∀ m ∈ PyDict.keys ns, f m = a → m = n) → t.1 = n) ∧
      (∀ n, n ∈ PyDict.keys ns → f n = b → (∀ m ∈ PyDict.keys ns, f m = b → m = n) → t.2 = n) ∧
      ((∀ m ∈ PyDict.keys ns, f m ≠ a) → t.1 = s.1) ∧ ((∀ m ∈ PyDict.keys ns, f m ≠ b) → t.2 = s.2) := by
  induction ns generalizing s with
  | nil => exact ⟨s, rfl, by simp [PyDict.keys], by simp [PyDict.keys], fun _ => rfl, fun _ => rfl⟩
  | cons p ps ih =>
    have hp := hl p (by simp)
    obtain ⟨t, h1, h2, h3, h4, h5⟩ := ih (if f p.1 = a then p.1 else s.1, if f p.1 = b then p.1 else s.2) (fun q hq => hl q (by simp [hq]))
    refine ⟨t, ?_, ?_, ?_, ?_, ?_⟩
    · rw [List.foldlM_cons]
      simp only [attr, hp, bind, Except.bind, pure, Except.pure, isLevel, beq_iff_eq]
      exact h1
    · intro n hn hf hu
      by_cases hm : n ∈ PyDict.keys ps
      · exact h2 n hm hf (fun m hm' => hu m (List.mem_cons_of_mem _ hm'))
      · have hpn : p.1 = n := by
          rcases List.mem_cons.1 (show n ∈ p.1 :: PyDict.keys ps from hn) with e | e
          · exact e.symm
          · exact absurd e hm
        rw [h4 (fun m hm' hc => hm (hu m (List.mem_cons_of_mem _ hm') hc ▸ hm'))]
        show (if f p.1 = a then p.1 else s.1) = n
        rw [if_pos (by rw [hpn, hf])]
        exact hpn
    · intro n hn hf hu
      by_cases hm : n ∈ PyDict.keys ps
      · exact h3 n hm hf (fun m hm' => hu m (List.mem_cons_of_mem _ hm'))
      · have hpn : p.1 = n := by
          rcases List.mem_cons.1 (show n ∈ p.1 :: PyDict.keys ps from hn) with e | e
          · exact e.symm
          · exact absurd e hm
        rw [h5 (fun m hm' hc => hm (hu m (List.mem_cons_of_mem _ hm') hc ▸ hm'))]
        show (if f p.1 = b then p.1 else s.2) = n
        rw [if_pos (by rw [hpn, hf])]
        exact hpn
    · intro hc
      rw [h4 (fun m hm => hc m (List.mem_cons_of_mem _ hm)), if_neg (hc p.1 (List.mem_cons_self ..))]
    · intro hc
      rw [h5 (fun m hm => hc m (List.mem_cons_of_mem _ hm)), if_neg (hc p.1 (List.mem_cons_self ..))]

theorem Spec.Device.findLogic (h : Device d g lp) (i j : Fin d) :
    findLogic ((lp i : Fin d) : Nat) ((lp j : Fin d) : Nat) g = .ok (((i : Nat) : Int), ((j : Nat) : Int)) := by
  let f : Int → Int := fun n => match value g n "lpmap" with | some (.int k) => k | _ => -1
  have hf : ∀ i : Fin d, f (i : Nat) = ((lp i : Fin d) : Nat) := by
    intro i
    show (match value g (i : Nat) "lpmap" with | some (.int k) => k | _ => -1) = _
    rw [h.lp i]
  obtain ⟨t, h1, h2, h3, _⟩ := findLogic_aux ((lp i : Fin d) : Nat) ((lp j : Fin d) : Nat) f g.nodes (-1, -1) (by
    intro p hp
    obtain ⟨i, hi⟩ := (h.mem_iff p.1).1 (List.mem_map_of_mem hp)
    rw [← value_of_mem h.wf.nodup p hp, hi, h.lp i, hf i])
  have uniq : ∀ k : Fin d, ∀ m ∈ PyDict.keys g.nodes, f m = ((lp k : Fin d) : Nat) → m = (k : Nat) := by
    intro k m hm hfm
    obtain ⟨l, rfl⟩ := (h.mem_iff m).1 hm
    rw [hf] at hfm
    have : l = k := lp.injective (Fin.ext (by exact_mod_cast hfm))
    rw [this]
  have e1 := h2 (i : Nat) (h.mem i) (hf i) (uniq i)
  have e2 := h3 (j : Nat) (h.mem j) (hf j) (uniq j)
  unfold LocalQR.findLogic
  rw [h1]
  congr 1
  exact Prod.ext e1 e2

/-- the effect of stored phases on a rotation -/
theorem Spec.Device.ongate (h : Device d g lp) (r : RGate) (i j : Fin d) (hij : i ≠ j) (hi : r.par.levA = ((lp i : Fin d) : Nat))
    (hj : r.par.levB = ((lp j : Fin d) : Nat)) (hlt : lp i < lp j) (hn : NoPhases d g) (ht : regulateTheta r.par.theta = r.par.theta) :
    ∃ r', graphRuleOngate d r g = .ok r' ∧ r'.par = r.par := by
  unfold graphRuleOngate
  rcases h.hasPhases with ⟨h1, h2⟩ | ⟨h1, _⟩
  · obtain ⟨x, hx⟩ := h2 i
    obtain ⟨y, hy⟩ := h2 j
    have hx0 := hn i _ hx
    have hy0 := hn j _ hy
    cases hx0
    cases hy0
    rw [h1, hi, hj, h.findLogic i j]
    have hni : ((i : Nat) : Int) ≠ -1 := by omega
    have hnj : ((j : Nat) : Int) ≠ -1 := by omega
    simp only [bind, Except.bind, Bool.not_true, Bool.false_eq_true, if_false, hni, hnj, ne_eq, not_false_eq_true, if_true,
      phase_ok g _ _ hx, phase_ok g _ _ hy, pure, Except.pure]
    rw [newRot_ok (lp i) (lp j) (fun e => hij (lp.injective e))]
    refine ⟨_, rfl, ?_⟩
    rw [min_eq_left hlt.le, max_eq_right hlt.le, ht]
    cases hr : r.par
    rw [hr] at hi hj
    simp_all
  · rw [h1]
    exact ⟨r, rfl, rfl⟩

theorem swap_cast (a b i : Fin d) : Equiv.swap ((a : Nat) : Int) ((b : Nat) : Int) ((i : Nat) : Int) = ((Equiv.swap a b i : Fin d) : Nat) := by
  by_cases h1 : i = a
  · subst h1; simp
  · by_cases h2 : i = b
    · subst h2; simp
    · rw [Equiv.swap_apply_of_ne_of_ne h1 h2, Equiv.swap_apply_of_ne_of_ne]
      · intro h; exact h1 (Fin.ext (by exact_mod_cast h))
      · intro h; exact h2 (Fin.ext (by exact_mod_cast h))

theorem isPath_renamed {σ : Equiv.Perm Int} {h : LGraph} (hr : Renamed σ g h) (a b : Int) (p : List Int) (hp : IsPath g a b p) :
    IsPath h (σ.symm a) (σ.symm b) (p.map σ.symm) := by
  refine ⟨?_, ?_, ?_, hp.nodup.map σ.symm.injective⟩
  · rw [List.head?_map, hp.first]; rfl
  · rw [List.getLast?_map, hp.last]; rfl
  · rw [List.isChain_map]
    refine hp.steps.imp ?_
    intro u v huv
    unfold Spec.Joined at huv ⊢
    rw [hr.edges, Equiv.apply_symm_apply, Equiv.apply_symm_apply]
    exact huv

theorem Spec.Device.swap (h : Device d g lp) (a b : Fin d) :
    ∃ g', g.swapNodes (a : Nat) (b : Nat) = .ok g' ∧ Device d g' (lp * Equiv.swap a b) ∧
      Renamed (Equiv.swap ((a : Nat) : Int) ((b : Nat) : Int)) g g' ∧ (NoPhases d g → NoPhases d g') := by
  obtain ⟨g', h1, h2, h3, h4, _⟩ := swapNodes_ok g h.wf h.uniform _ _ (h.mem a) (h.mem b)
  have hv : ∀ (i : Fin d) (k : String), value g' (i : Nat) k = value g ((Equiv.swap a b i : Fin d) : Nat) k := by
    intro i k
    rw [h4.value, swap_cast]
  refine ⟨g', h1, ⟨h2, h3, ?_, ?_, ?_, ?_, ?_, ?_⟩, h4, ?_⟩
  · rw [h4.names]; exact h.names
  · intro i; rw [hv, h.lp]; rfl
  · intro i; rw [hv]; exact h.level _
  · obtain ⟨i, hi⟩ := h.start
    exact ⟨Equiv.swap a b i, by rw [hv, Equiv.swap_apply_self]; exact hi⟩
  · intro i j
    obtain ⟨p, hp⟩ := h.conn (Equiv.swap a b i) (Equiv.swap a b j)
    have := isPath_renamed h4 _ _ p hp
    rw [Equiv.symm_swap, swap_cast, swap_cast, Equiv.swap_apply_self, Equiv.swap_apply_self] at this
    exact ⟨_, this⟩
  · intro i v; rw [hv]; exact h.phases _ v
  · intro hn i v; rw [hv]; exact hn _ v

end Qudits
