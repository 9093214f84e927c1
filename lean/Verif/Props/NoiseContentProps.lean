import Verif.Model.Noise
import Verif.Spec.Layout
import Mathlib.Tactic.NormNum
import Mathlib.Tactic.Push
import Mathlib.Data.Fin.VecNotation
/-
Property C55: which error gates the noisy circuit receives for given random outcomes.
-/
namespace Qudits
open NoisyFactory

variable {P : Type} {n : Nat}

theorem emitN_ok (g : NoisyInstr) : ∀ (k : Nat) (s : St),
    emitN g k s = ⟨s.instrs ++ List.replicate k g, s.numGates + k, s.drawn⟩
  | 0, s => by simp [emitN]
  | k + 1, s => by
    rw [emitN, emitN_ok g k]
    simp only [emit, List.append_assoc, List.singleton_append, ← List.replicate_succ]
    congr 1
    omega

theorem dimAt_ok (d : Fin n → Nat) (q : Fin n) : dimAt (List.ofFn d) ((q : Nat) : Int) = .ok (d q) := by
  unfold dimAt
  rw [if_pos (by omega)]
  simp

/-- C55: mathematical depolarising noise draws once per affected line, in the order of the lines; outcome number `a * d + b` adds `a`
gates X and then `b` gates Z on that line and nothing else. -/
theorem C55_depolarizing (rng : Draws) (d : Fin n → Nat) (hpos : ∀ i, 0 < d i) (qs : List (Fin n)) (noise : Noise P) (s : St)
    (out : List (Nat × Nat)) (hout : ∀ j q, qs[j]? = some q → ∃ a b, out[j]? = some (a, b) ∧ a < d q ∧ b < d q ∧
      rng (s.drawn + j) % (d q * d q) = a * d q + b) (hlen : out.length = qs.length) :
    ∃ s', applyDepol rng (List.ofFn d) (qs.map fun q : Fin n => ((q : Nat) : Int)) (.math noise) s = .ok s' ∧
      s'.instrs = s.instrs ++ (List.zipWith (fun (q : Fin n) (ab : Nat × Nat) =>
        List.replicate ab.1 (NoisyInstr.x ((q : Nat) : Int)) ++ List.replicate ab.2 (NoisyInstr.z ((q : Nat) : Int))) qs out).flatten ∧
      s'.drawn = s.drawn + qs.length := by
  unfold applyDepol
  dsimp only
  induction qs generalizing s out with
  | nil => exact ⟨s, rfl, by simp, rfl⟩
  | cons q qs ih =>
    obtain ⟨a, b, h0, ha, hb, hk⟩ := hout 0 q rfl
    match out, h0, hlen with
    | (a', b') :: out, h0, hlen =>
      obtain ⟨rfl, rfl⟩ : a' = a ∧ b' = b := by
        simp only [List.getElem?_cons_zero, Option.some.injEq, Prod.mk.injEq] at h0
        exact h0
      have hd := hpos q
      have hstep : depolMath rng (List.ofFn d) ((q : Nat) : Int) s = .ok ⟨s.instrs ++ (List.replicate a' (NoisyInstr.x ((q : Nat) : Int)) ++
          List.replicate b' (NoisyInstr.z ((q : Nat) : Int))), s.numGates + a' + b', s.drawn + 1⟩ := by
        unfold depolMath
        rw [dimAt_ok]
        simp only [bind, Except.bind, pure, Except.pure]
        rw [if_neg (by omega)]
        unfold draw
        rw [show rng s.drawn % (d q * d q) = a' * d q + b' from hk]
        simp only [emitN_ok]
        rw [show (a' * d q + b') / d q = a' by
            rw [Nat.mul_comm, Nat.mul_add_div hd, Nat.div_eq_of_lt hb]; omega,
          show (a' * d q + b') % d q = b' by rw [Nat.mul_comm, Nat.mul_add_mod, Nat.mod_eq_of_lt hb],
          List.append_assoc]
      obtain ⟨s', h1, h2, h3⟩ := ih ⟨s.instrs ++ (List.replicate a' (NoisyInstr.x ((q : Nat) : Int)) ++
          List.replicate b' (NoisyInstr.z ((q : Nat) : Int))), s.numGates + a' + b', s.drawn + 1⟩ out (by
        intro j q' hq'
        obtain ⟨x, y, e1, e2, e3, e4⟩ := hout (j + 1) q' (by simpa using hq')
        refine ⟨x, y, by simpa using e1, e2, e3, ?_⟩
        rw [← e4]
        congr 2
        dsimp only
        omega) (by simpa using hlen)
      refine ⟨s', ?_, ?_, ?_⟩
      · rw [List.map_cons, List.foldlM_cons, hstep]
        exact h1
      · rw [h2, List.zipWith_cons_cons, List.flatten_cons, List.append_assoc]
      · rw [h3, List.length_cons]
        dsimp only
        omega

/-- a loop each of whose rounds draws once -/
theorem fold_draws {α : Type} (rng : Draws) (step : St → α → Except PyErr St) (e : α → Nat → List NoisyInstr) :
    ∀ (items : List α), (∀ a ∈ items, ∀ s, ∃ s', step s a = .ok s' ∧ s'.instrs = s.instrs ++ e a (rng s.drawn) ∧ s'.drawn = s.drawn + 1) →
    ∀ s, ∃ s', items.foldlM step s = .ok s' ∧
      s'.instrs = s.instrs ++ ((items.zipIdx s.drawn).flatMap fun p => e p.1 (rng p.2)) ∧ s'.drawn = s.drawn + items.length
  | [], _, s => ⟨s, rfl, by simp, rfl⟩
  | a :: items, h, s => by
    obtain ⟨s1, h1, h2, h3⟩ := h a List.mem_cons_self s
    obtain ⟨s', k1, k2, k3⟩ := fold_draws rng step e items (fun b hb => h b (List.mem_cons_of_mem _ hb)) s1
    refine ⟨s', ?_, ?_, ?_⟩
    · rw [List.foldlM_cons, h1]; exact k1
    · rw [k2, h2, h3, List.zipIdx_cons, List.flatMap_cons, List.append_assoc]
    · rw [k3, h3, List.length_cons]; omega

/-- two nested loops as one loop over the pairs -/
theorem foldlM_nested {α β : Type} (f : St → α → β → Except PyErr St) (inner : α → List β) : ∀ (qs : List α) (s : St),
    qs.foldlM (fun s q => (inner q).foldlM (fun s l => f s q l) s) s =
      (qs.flatMap fun q => (inner q).map fun l => (q, l)).foldlM (fun s p => f s p.1 p.2) s
  | [], s => rfl
  | q :: qs, s => by
    rw [List.flatMap_cons, List.foldlM_append, List.foldlM_cons, List.foldlM_map]
    congr 1
    funext s'
    exact foldlM_nested f inner qs s'

/-- the error gates of one outcome of physical depolarising noise on a pair of levels -/
def physicalError (q : Nat) (l : Int × Int) : Nat → List NoisyInstr
  | 0 => []
  | 1 => [.noisez q l.2]
  | 2 => [.noisex q l.1 l.2]
  | _ => [.noisey q l.1 l.2]

/-- C55: physical depolarising noise draws one of four outcomes for every affected line and every pair of levels, in this order:
nothing, a phase flip of the second level, an exchange, or both. -/
theorem C55_physical (rng : Draws) (d : Fin n → Nat) (qs : List (Fin n)) (m : SubspaceNoise P) (s : St)
    (hlev : ∀ q ∈ qs, ∀ l ∈ PyDict.keys m, (0 ≤ l.1 ∧ l.1 < d q) ∧ 0 ≤ l.2 ∧ l.2 < d q) :
    ∃ s', applyDepol rng (List.ofFn d) (qs.map fun q : Fin n => ((q : Nat) : Int)) (.sub m) s = .ok s' ∧
      s'.instrs = s.instrs ++ (((qs.flatMap fun q => (PyDict.keys m).map fun l => (q, l)).zipIdx s.drawn).flatMap fun p =>
        physicalError p.1.1 p.1.2 (rng p.2 % 4)) := by
  have hrew : applyDepol rng (List.ofFn d) (qs.map fun q : Fin n => ((q : Nat) : Int)) (.sub m) s =
      (qs.flatMap fun q => (PyDict.keys m).map fun l => (q, l)).foldlM
        (fun s p => depolSubOne rng (d p.1) ((p.1 : Nat) : Int) s p.2) s := by
    unfold applyDepol
    dsimp only
    rw [List.foldlM_map, ← foldlM_nested (fun s q l => depolSubOne rng (d q) ((q : Nat) : Int) s l)]
    congr 1
    funext s q
    rw [dimAt_ok]
    rfl
  rw [hrew]
  obtain ⟨s', h1, h2, _⟩ := fold_draws rng (fun s (p : Fin n × (Int × Int)) => depolSubOne rng (d p.1) ((p.1 : Nat) : Int) s p.2)
    (fun p k => physicalError p.1 p.2 (k % 4)) (qs.flatMap fun q => (PyDict.keys m).map fun l => (q, l)) (by
      rintro ⟨q, l⟩ hp s
      simp only [List.mem_flatMap, List.mem_map, Prod.mk.injEq] at hp
      obtain ⟨q', hq', l', hl', rfl, rfl⟩ := hp
      obtain ⟨h1, h2⟩ := hlev q' hq' l' hl'
      unfold depolSubOne draw
      rw [if_neg (by rintro (h | h) <;> exact h (by assumption))]
      dsimp only
      have hk : rng s.drawn % 4 < 4 := Nat.mod_lt _ (by norm_num)
      rcases (by omega : rng s.drawn % 4 = 0 ∨ rng s.drawn % 4 = 1 ∨ rng s.drawn % 4 = 2 ∨ rng s.drawn % 4 = 3) with h | h | h | h <;>
        rw [h]
      · exact ⟨_, rfl, by simp [physicalError], rfl⟩
      · exact ⟨_, rfl, rfl, rfl⟩
      · exact ⟨_, rfl, rfl, rfl⟩
      · exact ⟨_, rfl, rfl, rfl⟩) s
  exact ⟨s', h1, h2⟩

/-- C55: dephasing draws one of two outcomes for every affected line, every pair of levels and every level of the line outside the
pair, in ascending order; the first outcome adds a phase flip of that level. -/
theorem C55_dephasing (rng : Draws) (d : Fin n → Nat) (qs : List (Fin n)) (m : SubspaceNoise P) (s : St)
    (hlev : ∀ q ∈ qs, ∀ l ∈ PyDict.keys m, (0 ≤ l.1 ∧ l.1 < d q) ∧ 0 ≤ l.2 ∧ l.2 < d q) :
    ∃ s', applyDephase rng (List.ofFn d) (qs.map fun q : Fin n => ((q : Nat) : Int)) (.sub m) s = .ok s' ∧
      s'.instrs = s.instrs ++ (((qs.flatMap fun q => (PyDict.keys m).flatMap fun l =>
          ((List.range (d q)).filter fun k : Nat => (k : Int) ≠ l.1 ∧ (k : Int) ≠ l.2).map fun k : Nat => (q, k)).zipIdx s.drawn).flatMap fun p =>
        if rng p.2 % 2 = 0 then [NoisyInstr.noisez ((p.1.1 : Nat) : Int) ((p.1.2 : Nat) : Int)] else []) := by
  have hone : ∀ (q : Fin n) (l : Int × Int), (0 ≤ l.1 ∧ l.1 < d q) ∧ 0 ≤ l.2 ∧ l.2 < d q → ∀ s,
      dephaseOne rng (d q) ((q : Nat) : Int) s l =
        (((List.range (d q)).filter fun k : Nat => (k : Int) ≠ l.1 ∧ (k : Int) ≠ l.2).map fun k : Nat => (q, k)).foldlM
          (fun s p => (.ok (dephaseLevel rng ((p.1 : Nat) : Int) s ((p.2 : Nat) : Int)) : Except PyErr St)) s := by
    rintro q l ⟨h1, h2⟩ s
    unfold dephaseOne
    rw [if_neg (by rintro (h | h) <;> exact h (by assumption))]
    dsimp only
    rw [List.filter_map, List.foldl_map, List.foldlM_map]
    have : ∀ (ls : List Nat) (s : St), (.ok (ls.foldl (fun s (k : Nat) => dephaseLevel rng ((q : Nat) : Int) s (k : Int)) s) : Except PyErr St) =
        ls.foldlM (fun s k => .ok (dephaseLevel rng ((q : Nat) : Int) s ((k : Nat) : Int))) s := by
      intro ls
      induction ls with
      | nil => intro s; rfl
      | cons k ls ih => intro s; rw [List.foldl_cons, List.foldlM_cons, ih]; rfl
    rw [this]
    rfl
  have hrew : applyDephase rng (List.ofFn d) (qs.map fun q : Fin n => ((q : Nat) : Int)) (.sub m) s =
      (qs.flatMap fun q => (PyDict.keys m).flatMap fun l =>
          ((List.range (d q)).filter fun k : Nat => (k : Int) ≠ l.1 ∧ (k : Int) ≠ l.2).map fun k : Nat => (q, k)).foldlM
        (fun s p => (.ok (dephaseLevel rng ((p.1 : Nat) : Int) s ((p.2 : Nat) : Int)) : Except PyErr St)) s := by
    unfold applyDephase
    dsimp only
    rw [List.foldlM_map]
    induction qs generalizing s with
    | nil => rfl
    | cons q qs ih =>
      rw [List.flatMap_cons, List.foldlM_append, List.foldlM_cons]
      have hq := hlev q List.mem_cons_self
      have hin : ∀ (ls : List (Int × Int)), (∀ l ∈ ls, (0 ≤ l.1 ∧ l.1 < d q) ∧ 0 ≤ l.2 ∧ l.2 < d q) → ∀ s,
          ls.foldlM (fun s l => dephaseOne rng (d q) ((q : Nat) : Int) s l) s =
          (ls.flatMap fun l => ((List.range (d q)).filter fun k : Nat => (k : Int) ≠ l.1 ∧ (k : Int) ≠ l.2).map fun k : Nat => (q, k)).foldlM
            (fun s p => (.ok (dephaseLevel rng ((p.1 : Nat) : Int) s ((p.2 : Nat) : Int)) : Except PyErr St)) s := by
        intro ls
        induction ls with
        | nil => intro _ s; rfl
        | cons l ls ihl =>
          intro h s
          rw [List.foldlM_cons, List.flatMap_cons, List.foldlM_append, hone q l (h l List.mem_cons_self)]
          congr 1
          funext s'
          exact ihl (fun l' hl' => h l' (List.mem_cons_of_mem _ hl')) s'
      rw [dimAt_ok]
      change (PyDict.keys m).foldlM (fun s l => dephaseOne rng (d q) ((q : Nat) : Int) s l) s >>= _ = _
      rw [hin _ hq]
      congr 1
      funext s'
      exact ih s' fun q' hq' => hlev q' (List.mem_cons_of_mem _ hq')
  rw [hrew]
  obtain ⟨s', h1, h2, _⟩ := fold_draws rng
    (fun s (p : Fin n × Nat) => (.ok (dephaseLevel rng ((p.1 : Nat) : Int) s ((p.2 : Nat) : Int)) : Except PyErr St))
    (fun p k => if k % 2 = 0 then [NoisyInstr.noisez ((p.1 : Nat) : Int) ((p.2 : Nat) : Int)] else [])
    (qs.flatMap fun q => (PyDict.keys m).flatMap fun l =>
          ((List.range (d q)).filter fun k : Nat => (k : Int) ≠ l.1 ∧ (k : Int) ≠ l.2).map fun k : Nat => (q, k)) (by
      rintro ⟨q, k⟩ _ s
      refine ⟨_, rfl, ?_, ?_⟩
      · unfold dephaseLevel draw
        dsimp only
        split <;> simp [emit]
      · unfold dephaseLevel draw
        dsimp only
        split <;> rfl) s
  exact ⟨s', h1, h2⟩

/-- C55: a pair of levels that does not exist on an affected line is refused. -/
theorem C55_rejects (rng : Draws) (d : Fin n → Nat) (q : Fin n) (qs : List (Fin n)) (m : SubspaceNoise P) (l : Int × Int) (nz : Noise P) (s : St)
    (h : ¬ ((0 ≤ l.1 ∧ l.1 < d q) ∧ 0 ≤ l.2 ∧ l.2 < d q)) :
    applyDepol rng (List.ofFn d) ((q :: qs).map fun q : Fin n => ((q : Nat) : Int)) (.sub ((l, nz) :: m)) s = .error .indexError := by
  unfold applyDepol
  dsimp only
  rw [List.map_cons, List.foldlM_cons, dimAt_ok]
  simp only [bind, Except.bind, PyDict.keys, List.map_cons, List.foldlM_cons]
  have : depolSubOne rng (d q) ((q : Nat) : Int) s l = .error .indexError := by
    unfold depolSubOne
    rw [if_pos]
    by_contra hc
    push Not at hc
    exact h ⟨hc.1, hc.2⟩
  rw [this]

/-- A qutrit and a qubit, both outcomes of the first line: pair (1, 2) of the qutrit, pair (1, 0) of the qubit. -/
example (noise : Noise P) : ∃ s', applyDepol (fun k => 5 - 3 * k) [3, 2] [0, 1] (.math noise) ⟨[], 0, 0⟩ = .ok s' ∧
    s'.instrs = [.x 0, .z 0, .z 0, .x 1] := by
  obtain ⟨s', h1, h2, _⟩ := C55_depolarizing (fun k => 5 - 3 * k) (![3, 2] : Fin 2 → Nat) (by decide) [0, 1] noise ⟨[], 0, 0⟩ [(1, 2), (1, 0)] (by
    intro j q hq
    match j, hq with
    | 0, hq => cases hq; exact ⟨1, 2, rfl, by decide, by decide, by decide⟩
    | 1, hq => cases hq; exact ⟨1, 0, rfl, by decide, by decide, by decide⟩) rfl
  exact ⟨s', h1, h2⟩

end Qudits
