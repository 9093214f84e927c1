import Verif.Spec.MisimNoiseSpec
import Verif.Props.MisimProps
import Mathlib.Data.String.Basic
/- Lemmas on the noisy circuits of the decision-diagram simulator. -/
namespace Qudits
open Spec DD

variable {n : Nat}

/-! ### maps -/

theorem insertKey_lookup {V : Type} (k : String) (v : V) (l : List (String × V)) (k' : String) :
    (Misim.insertKey k v l).lookup k' = if k' = k then some v else l.lookup k' := by
  induction l with
  | nil =>
    unfold Misim.insertKey
    by_cases h : k' = k
    · simp [h]
    · rw [List.lookup_cons, beq_false_of_ne h, if_neg h]
  | cons e l ih =>
    obtain ⟨a, b⟩ := e
    unfold Misim.insertKey
    by_cases h1 : k < a
    · rw [if_pos h1]
      by_cases h : k' = k
      · simp [h]
      · rw [List.lookup_cons, beq_false_of_ne h, if_neg h]
    · rw [if_neg h1]
      by_cases h2 : k = a
      · rw [if_pos h2]
        by_cases h : k' = k
        · simp [h]
        · rw [List.lookup_cons, beq_false_of_ne h, if_neg h, List.lookup_cons, beq_false_of_ne (fun e => h (e.trans h2.symm))]
      · rw [if_neg h2, List.lookup_cons, ih, List.lookup_cons]
        by_cases h3 : k' = a
        · have hkk : ¬k' = k := fun e => h2 (e.symm.trans h3)
          simp only [hkk, if_false]
        · rw [beq_false_of_ne h3]

theorem insertKey_perm {V : Type} (k : String) (v : V) (l : List (String × V)) (h : k ∉ l.map Prod.fst) :
    (Misim.insertKey k v l).Perm ((k, v) :: l) := by
  induction l with
  | nil => exact .refl _
  | cons e l ih =>
    rw [List.map_cons, List.mem_cons, not_or] at h
    unfold Misim.insertKey
    split
    · exact .refl _
    · rw [if_neg h.1]
      exact ((ih h.2).cons e).trans (.swap _ _ _)

theorem insertKey_sorted {V : Type} (k : String) (v : V) (l : List (String × V)) (h : k ∉ l.map Prod.fst)
    (hs : l.Pairwise fun a b => a.1 < b.1) : (Misim.insertKey k v l).Pairwise fun a b => a.1 < b.1 := by
  induction l with
  | nil => simp [Misim.insertKey]
  | cons e l ih =>
    rw [List.map_cons, List.mem_cons, not_or] at h
    rw [List.pairwise_cons] at hs
    unfold Misim.insertKey
    split
    next hlt =>
      rw [List.pairwise_cons]
      refine ⟨?_, List.pairwise_cons.2 hs⟩
      intro x hx
      rcases List.mem_cons.1 hx with rfl | hx
      · exact hlt
      · exact lt_trans hlt (hs.1 x hx)
    next hlt =>
      rw [if_neg h.1, List.pairwise_cons]
      refine ⟨?_, ih h.2 hs.2⟩
      intro x hx
      rcases List.mem_cons.1 ((insertKey_perm k v l h.2).mem_iff.1 hx) with rfl | hx
      · exact lt_of_le_of_ne (not_lt.1 hlt) (fun e => h.1 e.symm)
      · exact hs.1 x hx

/-- the modes of one gate as the map has them -/
def sortModes (modes : List (String × Noise ℝ)) : List (String × Noise ℝ) := modes.foldl (fun acc e => Misim.insertKey e.1 e.2 acc) []

theorem sortModes_aux (modes : List (String × Noise ℝ)) : ∀ acc : List (String × Noise ℝ), (acc.map Prod.fst ++ modes.map Prod.fst).Nodup →
    (acc.Pairwise fun a b => a.1 < b.1) →
    (modes.foldl (fun acc e => Misim.insertKey e.1 e.2 acc) acc).Perm (acc ++ modes) ∧
    (modes.foldl (fun acc e => Misim.insertKey e.1 e.2 acc) acc).Pairwise fun a b => a.1 < b.1 := by
  induction modes with
  | nil => intro acc _ h; simpa using h
  | cons e modes ih =>
    intro acc hn hs
    obtain ⟨k, v⟩ := e
    have hk : k ∉ acc.map Prod.fst := by
      intro h
      rw [List.nodup_append] at hn
      exact hn.2.2 k h k (by simp) rfl
    have hp := insertKey_perm k v acc hk
    obtain ⟨h1, h2⟩ := ih (Misim.insertKey k v acc) (by
      refine (List.Perm.nodup_iff ?_).1 hn
      refine .trans ?_ ((hp.map Prod.fst).symm.append_right _)
      simpa using List.perm_middle) (insertKey_sorted k v acc hk hs)
    refine ⟨h1.trans ((hp.append_right _).trans ?_), h2⟩
    simpa using List.perm_middle.symm

theorem sortModes_ok (modes : List (String × Noise ℝ)) (h : (PyDict.keys modes).Nodup) :
    (sortModes modes).Perm modes ∧ (sortModes modes).Pairwise fun a b => a.1 < b.1 := by
  obtain ⟨h1, h2⟩ := sortModes_aux modes [] (by simpa [PyDict.keys] using h) (by simp)
  exact ⟨by simpa [sortModes] using h1, h2⟩

theorem sorted_unique {l l' : List (String × Noise ℝ)} (hp : l.Perm l') (hs : l.Pairwise fun a b => a.1 < b.1)
    (hs' : l'.Pairwise fun a b => a.1 < b.1) : l = l' :=
  hp.eq_of_pairwise (fun _ _ _ _ h1 h2 => absurd h1 (lt_asymm h2)) hs hs'

theorem parseModes_ok (modes : List (String × Noise ℝ)) :
    Misim.parseModes (modes.map fun f => (f.1, NoiseObj.math f.2)) = .ok (sortModes modes) := by
  unfold Misim.parseModes sortModes
  generalize ([] : List (String × Noise ℝ)) = acc
  induction modes generalizing acc with
  | nil => rfl
  | cons e modes ih =>
    rw [List.map_cons, List.foldlM_cons, List.foldl_cons]
    exact ih _

theorem parseNoise_ok (noise : PyDict String (PyDict String (Noise ℝ))) (hk : Keyed noise) :
    ∃ l, Misim.parseNoise (asModel noise) = .ok l ∧ ∀ tag, l.lookup tag = (PyDict.get? noise tag).map sortModes := by
  have : ∀ (noise : PyDict String (PyDict String (Noise ℝ))) (acc : List (String × List (String × Noise ℝ))), (PyDict.keys noise).Nodup →
      ∃ l, (asModel noise).foldlM (fun acc e => do
        let m ← Misim.parseModes e.2
        pure (Misim.insertKey e.1 m acc)) acc = (.ok l : Except Misim.MErr _) ∧
      ∀ tag, l.lookup tag = match PyDict.get? noise tag with
        | some m => some (sortModes m)
        | none => acc.lookup tag := by
    intro noise
    induction noise with
    | nil => intro acc _; exact ⟨acc, rfl, fun tag => rfl⟩
    | cons e noise ih =>
      intro acc hn
      obtain ⟨k, m⟩ := e
      have hn' : k ∉ PyDict.keys noise ∧ (PyDict.keys noise).Nodup := by simpa [PyDict.keys] using hn
      obtain ⟨l, h1, h2⟩ := ih (Misim.insertKey k (sortModes m) acc) hn'.2
      refine ⟨l, ?_, fun tag => ?_⟩
      · unfold asModel at h1 ⊢
        rw [List.map_cons, List.foldlM_cons]
        simp only [parseModes_ok, bind, Except.bind, pure, Except.pure] at h1 ⊢
        exact h1
      · rw [h2, PyDict.get?]
        by_cases h : k = tag
        · subst h
          rw [(PyDict.get?_eq_none_iff noise k).2 hn'.1, if_pos rfl]
          dsimp only
          rw [insertKey_lookup, if_pos rfl]
        · rw [if_neg h]
          cases PyDict.get? noise tag with
          | some _ => rfl
          | none =>
            dsimp only
            rw [insertKey_lookup, if_neg (fun e => h e.symm)]
  obtain ⟨l, h1, h2⟩ := this noise [] hk.1
  refine ⟨l, h1, fun tag => ?_⟩
  rw [h2]
  cases PyDict.get? noise tag <;> rfl

theorem mem_of_get? {ν : Type} {k : String} {v : ν} : ∀ {m : PyDict String ν}, PyDict.get? m k = some v → (k, v) ∈ m
  | [], h => by simp [PyDict.get?] at h
  | (a, b) :: m, h => by
    rw [PyDict.get?] at h
    split at h
    next hk => rw [← hk, Option.some.inj h]; exact List.mem_cons_self
    next => exact List.mem_cons_of_mem _ (mem_of_get? h)

/-! ### gates -/

theorem Spec.Made.controls {d : Fin n → Nat} {g : Gate} {t : Target} {ts : List (Fin n)} (hg : Made d g t ts) : g.controls = none := by
  obtain ⟨_, name, g0, k, h0, rfl⟩ := hg
  obtain ⟨_, _, h, _⟩ := dag_iterate g0 k
  rw [h]
  unfold Gate.init at h0
  simp only [bind, Except.bind, pure, Except.pure] at h0
  split at h0
  · cases h0
  · injection h0 with h0
    subst h0
    rfl

theorem made_new (d : Fin n → Nat) (q : Fin n) (name : String) :
    Made d ⟨List.ofFn d, name, .single, .one (q : Nat), none, false, false⟩ (.one (q : Nat)) [q] :=
  ⟨rfl, name, _, 0, rfl, rfl⟩

theorem common_made {d : Fin n → Nat} {g : PyGate} (h : Common d g) : ∃ t ts, Made d g.gate t ts ∧ ts ≠ [] := by
  cases h with
  | plain g q tag hg => exact ⟨_, _, hg, by simp⟩
  | s g q hg => exact ⟨_, _, hg, by simp⟩
  | rxy g q a b _ _ hg => exact ⟨_, _, hg, by simp⟩
  | rz g q a b _ hg => exact ⟨_, _, hg, by simp⟩
  | rh g q a b hg => exact ⟨_, _, hg, by simp⟩
  | virtrz g q a _ hg => exact ⟨_, _, hg, by simp⟩
  | cx g c q l a b _ hg => exact ⟨_, _, hg, by simp⟩
  | csum g c q hg => exact ⟨_, _, hg, by simp⟩

/-- a rotation -/
def Rot (g : PyGate) : Prop := g.tag = "rxy" ∨ g.tag = "rz" ∨ g.tag = "virtrz"

theorem common_rot {d : Fin n → Nat} {g : PyGate} (h : Common d g) (hr : Rot g) :
    ∃ q : Fin n, Made d g.gate (.one ((q : Nat) : Int)) [q] ∧ ∃ a b : Fin (d q), a < b ∧ TurnedLevels g (d q) a b := by
  unfold Rot at hr
  cases h with
  | plain g q tag hg _ _ ht => simp at ht; rcases ht with rfl | rfl | rfl <;> simp at hr
  | s g q hg => simp at hr
  | rxy g q a b _ _ hg _ hab => exact ⟨q, hg, a, b, hab, .inl ⟨by simp, _, rfl⟩⟩
  | rz g q a b _ hg _ hab => exact ⟨q, hg, a, b, hab, .inl ⟨by simp, _, rfl⟩⟩
  | rh g q a b hg => simp at hr
  | virtrz g q a _ hg h2 =>
    refine ⟨q, hg, ?_⟩
    by_cases ha : (a : Nat) = d q - 1
    · exact ⟨⟨d q - 2, by omega⟩, ⟨d q - 1, by omega⟩, Fin.mk_lt_mk.2 (by omega), .inr ⟨rfl, a, _, rfl, .inr ⟨ha, rfl, rfl⟩⟩⟩
    · have := a.2
      exact ⟨a, ⟨a + 1, by omega⟩, Fin.lt_def.2 (by simp), .inr ⟨rfl, a, _, rfl, .inl ⟨ha, rfl, rfl⟩⟩⟩
  | cx g c q l a b _ hg => simp at hr
  | csum g c q hg => simp at hr

theorem turned_unique {g : PyGate} {dim a b a' b' : Nat} (h : TurnedLevels g dim a b) (h' : TurnedLevels g dim a' b') : a = a' ∧ b = b' := by
  rcases h with ⟨h1, r, h2⟩ | ⟨h1, v, r, h2, h3⟩ <;> rcases h' with ⟨h1', r', h2'⟩ | ⟨h1', v', r', h2', h3'⟩
  · rw [h2] at h2'
    simpa using And.intro ((by simpa using h2' : a = a' ∧ b = b' ∧ r = r').1) (by simpa using h2' : a = a' ∧ b = b' ∧ r = r').2.1
  · exact absurd h1' h1
  · exact absurd h1 h1'
  · rw [h2] at h2'
    obtain rfl : v = v' := (by simpa using h2' : v = v' ∧ r = r').1
    omega

/-! ### what the generator does -/

theorem affected_ok {d : Fin n → Nat} {g : PyGate} (hg : Common d g) {mode : String} {lines : List (Fin n)} (h : ErrorLines g mode lines) :
    Misim.affected (List.ofFn d).length (readInstr g) mode = .ok (lines.map fun i : Fin n => ((i : Nat) : Int)) := by
  obtain ⟨t, ts, hm, _⟩ := common_made hg
  have href : Misim.referenceLines (readInstr g) = g.gate.target.lines := by
    unfold Misim.referenceLines readInstr
    rw [hm.controls]
    simp
  have htg : (readInstr g).targets = g.gate.target.lines := rfl
  unfold Misim.affected
  rw [href, htg, List.length_ofFn]
  rcases h with ⟨rfl | rfl, h⟩ | ⟨rfl, h⟩ | ⟨rfl, q, rest, h, h'⟩ | ⟨rfl, p, q, rest, h, h'⟩
  · simp [h]
  · simp [h]
  · simp [h, List.map_ofFn, ← List.map_coe_finRange_eq_range]
  · simp [h, h']
  · simp [h, h']

theorem lineDim_ok (d : Fin n → Nat) (q : Fin n) : Misim.lineDim (List.ofFn d) ((q : Nat) : Int) = .ok (d q) := by
  unfold Misim.lineDim
  rw [if_pos (by omega)]
  simp

theorem isRotation_iff (g : PyGate) : Misim.isRotation (readInstr g).tag = true ↔ Rot g := by
  unfold Misim.isRotation Rot readInstr
  simp [or_assoc]

theorem errorLevels_ok {g : PyGate} {dim a b : Nat} (h2 : 2 ≤ dim) (h7 : dim ≤ 7) (h : TurnedLevels g dim a b) :
    Misim.errorLevels (readInstr g) dim = .ok (a, b) := by
  have hs1 : Misim.toSize ((dim : Int) - 1) = dim - 1 := by
    unfold Misim.toSize
    omega
  have hs2 : Misim.toSize ((dim : Int) - 2) = dim - 2 := by
    unfold Misim.toSize
    omega
  have hp : (readInstr g).params = g.params := rfl
  have ht : (readInstr g).tag = g.tag := rfl
  unfold Misim.errorLevels
  rw [hp, ht, hs1, hs2]
  rcases h with ⟨h1, r, h2⟩ | ⟨h1, v, r, h2, h3⟩
  · rw [h2]
    simp [DD.paramList, DD.getSize, bind, Except.bind, pure, Except.pure, h1]
  · rw [h2]
    simp only [DD.paramList, DD.getSize, bind, Except.bind, pure, Except.pure, h1]
    simp only [List.getElem?_cons_zero, Int.natCast_nonneg, if_true, Int.toNat_natCast]
    rcases h3 with ⟨h3, rfl, rfl⟩ | ⟨h3, rfl, rfl⟩
    · rw [if_pos h3]
    · rw [if_neg (not_not.2 h3)]

theorem made_instr {d : Fin n → Nat} {e : PyGate} {q : Fin n} (h : Made d e.gate (.one (q : Nat)) [q]) (hd : e.gate.dagger = false)
    (hdim : e.dimensions = [d q]) : readInstr e = ⟨e.tag, false, [d q], [((q : Nat) : Int)], e.params, ([], [])⟩ := by
  unfold readInstr
  rw [h.controls, hd, hdim, h.target]
  rfl

theorem xError_ok {d : Fin n → Nat} (hd : ∀ i, 2 ≤ d i ∧ d i ≤ 7) {g e : PyGate} {q : Fin n} (h : DepolError d g q e) :
    Misim.xError (List.ofFn d) (readInstr g) ((q : Nat) : Int) = .ok (readInstr e) := by
  obtain ⟨hm, hdg, hdim, h⟩ := h
  rw [made_instr hm hdg hdim]
  unfold Misim.xError
  rw [lineDim_ok]
  simp only [bind, Except.bind, pure, Except.pure]
  by_cases hr : Rot g
  · rw [if_pos ((isRotation_iff g).2 hr)]
    unfold Rot at hr
    rw [if_pos hr] at h
    obtain ⟨ht, a, b, hl, hp⟩ := h
    rw [errorLevels_ok (hd q).1 (hd q).2 hl, ht, hp]
  · rw [if_neg (fun h => hr ((isRotation_iff g).1 h))]
    unfold Rot at hr
    rw [if_neg hr] at h
    rw [h.1, h.2]

theorem zError_ok {d : Fin n → Nat} (hd : ∀ i, 2 ≤ d i ∧ d i ≤ 7) {g e : PyGate} {q : Fin n} (h : DephaseError d g q e) :
    Misim.zError (List.ofFn d) (readInstr g) ((q : Nat) : Int) = .ok (readInstr e) := by
  obtain ⟨hm, hdg, hdim, h⟩ := h
  rw [made_instr hm hdg hdim]
  unfold Misim.zError
  rw [lineDim_ok]
  simp only [bind, Except.bind, pure, Except.pure]
  by_cases hr : Rot g
  · rw [if_pos ((isRotation_iff g).2 hr)]
    unfold Rot at hr
    rw [if_pos hr] at h
    obtain ⟨ht, a, b, hl, hp⟩ := h
    rw [errorLevels_ok (hd q).1 (hd q).2 hl, ht, hp]
  · rw [if_neg (fun h => hr ((isRotation_iff g).1 h))]
    unfold Rot at hr
    rw [if_neg hr] at h
    rw [h.1, h.2]

theorem errors_mapM {R : Fin n → PyGate → Prop} {f : Int → Except DD.Err DD.Instr} (hf : ∀ q e, R q e → f ((q : Nat) : Int) = .ok (readInstr e))
    {lines : List (Fin n)} {es : List PyGate} (h : List.Forall₂ R lines es) :
    (lines.map fun i : Fin n => ((i : Nat) : Int)).mapM f = .ok (es.map readInstr) := by
  induction h with
  | nil => rfl
  | cons h _ ih =>
    rw [List.map_cons, List.mapM_cons, hf _ _ h]
    simp only [bind, Except.bind, pure, Except.pure, ih, List.map_cons]

/-- the draws agree with a list of required outcomes -/
def Agrees (rng : Misim.Chance ℝ) : Nat → List (ℝ × Bool) → Prop
  | _, [] => True
  | k, c :: cs => rng k c.1 = c.2 ∧ Agrees rng (k + 1) cs

theorem agrees_append (rng : Misim.Chance ℝ) : ∀ (k : Nat) (a b : List (ℝ × Bool)),
    Agrees rng k (a ++ b) ↔ Agrees rng k a ∧ Agrees rng (k + a.length) b
  | k, [], b => by simp [Agrees]
  | k, c :: a, b => by
    rw [List.cons_append, Agrees, Agrees, agrees_append rng (k + 1) a b, List.length_cons, and_assoc, show k + 1 + a.length = k + (a.length + 1) by omega]

theorem exists_draws (cs : List (ℝ × Bool)) (h : ∀ c ∈ cs, Possible c.1 c.2) : ∃ rng, Faithful rng ∧ Agrees rng 0 cs := by
  classical
  let rng : Misim.Chance ℝ := fun k p => match cs[k]? with
    | some c => if c.1 = p then c.2 else decide (0 < p)
    | none => decide (0 < p)
  have hdef : ∀ p : ℝ, Possible p (decide (0 < p)) := by
    intro p
    unfold Possible
    by_cases hp : 0 < p
    · simp [hp]
    · simp [hp]; linarith
  refine ⟨rng, ?_, ?_⟩
  · intro k p
    change Possible p (match cs[k]? with
      | some c => if c.1 = p then c.2 else decide (0 < p)
      | none => decide (0 < p))
    split
    next c hc =>
      split
      next hcp => rw [← hcp]; exact h c (List.mem_of_getElem? hc)
      next => exact hdef p
    next => exact hdef p
  · have : ∀ (l : List (ℝ × Bool)) (k : Nat), (∀ i, cs[k + i]? = l[i]?) → Agrees rng k l := by
      intro l
      induction l with
      | nil => intro _ _; trivial
      | cons c l ih =>
        intro k hk
        refine ⟨?_, ih (k + 1) fun i => ?_⟩
        · have : cs[k]? = some c := by simpa using hk 0
          change (match cs[k]? with
            | some c' => if c'.1 = c.1 then c'.2 else decide (0 < c.1)
            | none => decide (0 < c.1)) = c.2
          rw [this]
          exact if_pos rfl
        · have := hk (i + 1)
          rw [List.getElem?_cons_succ] at this
          rw [← this, show k + 1 + i = k + (i + 1) by omega]
    exact this cs 0 (by simp)

theorem applyMode_ok {d : Fin n → Nat} (hd : ∀ i, 2 ≤ d i ∧ d i ≤ 7) {g : PyGate} (hg : Common d g) {e : String × Noise ℝ}
    {lines : List (Fin n)} {x z : Bool} {xs zs : List PyGate} (hl : ErrorLines g e.1 lines)
    (hxs : if x then List.Forall₂ (DepolError d g) lines xs else xs = [])
    (hzs : if z then List.Forall₂ (DephaseError d g) lines zs else zs = []) (rng : Misim.Chance ℝ) (s : Misim.NSt)
    (hx : rng s.drawn e.2.depolarizing = x) (hz : rng (s.drawn + 1) e.2.dephasing = z) :
    Misim.applyMode rng (List.ofFn d) (readInstr g) s e = .ok ⟨s.out ++ (xs ++ zs).map readInstr, s.drawn + 2⟩ := by
  unfold Misim.applyMode
  rw [hx, hz, affected_ok hg hl]
  have ex : x = true → (lines.map fun i : Fin n => ((i : Nat) : Int)).mapM (Misim.xError (List.ofFn d) (readInstr g)) = .ok (xs.map readInstr) := by
    rintro rfl
    exact errors_mapM (fun q e => xError_ok hd) hxs
  have ez : z = true → (lines.map fun i : Fin n => ((i : Nat) : Int)).mapM (Misim.zError (List.ofFn d) (readInstr g)) = .ok (zs.map readInstr) := by
    rintro rfl
    exact errors_mapM (fun q e => zError_ok hd) hzs
  have nx : x = false → xs = [] := by
    rintro rfl
    simpa using hxs
  have nz : z = false → zs = [] := by
    rintro rfl
    simpa using hzs
  cases x <;> cases z <;> simp only [bind, Except.bind, pure, Except.pure] <;> simp_all

/-! ### errors exist -/

/-- the levels of a rotation are levels of these lines -/
def Fits (d : Fin n → Nat) (g : PyGate) (lines : List (Fin n)) : Prop :=
  Rot g → ∀ q ∈ lines, ∃ a b : Fin (d q), a < b ∧ TurnedLevels g (d q) a b

theorem depol_exists {d : Fin n → Nat} (hd : ∀ i, 2 ≤ d i ∧ d i ≤ 7) (g : PyGate) (q : Fin n)
    (h : Rot g → ∃ a b : Fin (d q), a < b ∧ TurnedLevels g (d q) a b) : ∃ e, DepolError d g q e ∧ Common d e := by
  by_cases hr : Rot g
  · obtain ⟨a, b, hab, hl⟩ := h hr
    exact ⟨⟨⟨List.ofFn d, "", .single, .one (q : Nat), none, false, false⟩, "rxy", [d q], _⟩,
      ⟨made_new d q _, rfl, rfl, by unfold Rot at hr; rw [if_pos hr]; exact ⟨rfl, a, b, hl, rfl⟩⟩, .rxy _ q a b _ _ (made_new d q _) (hd q).2 hab⟩
  · exact ⟨⟨⟨List.ofFn d, "", .single, .one (q : Nat), none, false, false⟩, "x", [d q], _⟩,
      ⟨made_new d q _, rfl, rfl, by unfold Rot at hr; rw [if_neg hr]; exact ⟨rfl, rfl⟩⟩, .plain _ q _ (made_new d q _) (hd q).1 (hd q).2 (by simp)⟩

theorem dephase_exists {d : Fin n → Nat} (hd : ∀ i, 2 ≤ d i ∧ d i ≤ 7) (g : PyGate) (q : Fin n)
    (h : Rot g → ∃ a b : Fin (d q), a < b ∧ TurnedLevels g (d q) a b) : ∃ e, DephaseError d g q e ∧ Common d e := by
  by_cases hr : Rot g
  · obtain ⟨a, b, hab, hl⟩ := h hr
    exact ⟨⟨⟨List.ofFn d, "", .single, .one (q : Nat), none, false, false⟩, "rz", [d q], _⟩,
      ⟨made_new d q _, rfl, rfl, by unfold Rot at hr; rw [if_pos hr]; exact ⟨rfl, a, b, hl, rfl⟩⟩, .rz _ q a b _ (made_new d q _) (hd q).2 hab⟩
  · exact ⟨⟨⟨List.ofFn d, "", .single, .one (q : Nat), none, false, false⟩, "z", [d q], _⟩,
      ⟨made_new d q _, rfl, rfl, by unfold Rot at hr; rw [if_neg hr]; exact ⟨rfl, rfl⟩⟩, .plain _ q _ (made_new d q _) (hd q).1 (hd q).2 (by simp)⟩

theorem forall₂_exists {R : Fin n → PyGate → Prop} {C : PyGate → Prop} : ∀ lines : List (Fin n), (∀ q ∈ lines, ∃ e, R q e ∧ C e) →
    ∃ es, List.Forall₂ R lines es ∧ ∀ e ∈ es, C e
  | [], _ => ⟨[], .nil, by simp⟩
  | q :: lines, h => by
    obtain ⟨e, h1, h2⟩ := h q (by simp)
    obtain ⟨es, h3, h4⟩ := forall₂_exists lines fun q' hq' => h q' (by simp [hq'])
    exact ⟨e :: es, .cons h1 h3, by simpa using ⟨h2, h4⟩⟩

theorem lines_exist {d : Fin n → Nat} {g : PyGate} (hg : Common d g) {mode : String}
    (h : mode ∈ ["local", "nonlocal", "all", "control", "target"] ∧ (mode = "target" → 2 ≤ g.gate.target.lines.length) ∧
      (mode = "all" → (g.tag = "rxy" ∨ g.tag = "rz" ∨ g.tag = "virtrz") → ∀ q, ∃ a b : Fin (d q), a < b ∧ TurnedLevels g (d q) a b)) :
    ∃ lines, ErrorLines g mode lines ∧ Fits d g lines := by
  obtain ⟨t, ts, hm, hne⟩ := common_made hg
  have htl : g.gate.target.lines = ts.map fun i : Fin n => ((i : Nat) : Int) := by rw [hm.target]; exact hm.1
  have hfit : ∀ lines : List (Fin n), (∀ q ∈ lines, q ∈ ts) → Fits d g lines := by
    intro lines hl hr q hq
    obtain ⟨q', hm', a, b, hab, ht⟩ := common_rot hg hr
    have h1 : g.gate.target.lines = [((q' : Nat) : Int)] := by rw [hm'.target]; rfl
    have : q = q' := by
      have h2 : ((q : Nat) : Int) ∈ g.gate.target.lines := by
        rw [htl]
        exact List.mem_map.2 ⟨q, hl q hq, rfl⟩
      rw [h1, List.mem_singleton] at h2
      exact Fin.ext (by exact_mod_cast h2)
    subst this
    exact ⟨a, b, hab, ht⟩
  obtain ⟨h1, h2, h3⟩ := h
  simp only [List.mem_cons, List.not_mem_nil, or_false] at h1
  rcases h1 with rfl | rfl | rfl | rfl | rfl
  · exact ⟨ts, .inl ⟨.inl rfl, htl.symm⟩, hfit ts fun _ h => h⟩
  · exact ⟨ts, .inl ⟨.inr rfl, htl.symm⟩, hfit ts fun _ h => h⟩
  · exact ⟨List.finRange n, .inr (.inl ⟨rfl, rfl⟩), fun hr q _ => h3 rfl hr q⟩
  · obtain ⟨q, ts', rfl⟩ := List.exists_cons_of_ne_nil hne
    exact ⟨[q], .inr (.inr (.inl ⟨rfl, q, _, rfl, htl⟩)), hfit _ (by simp)⟩
  · have h2 := h2 rfl
    rw [htl, List.length_map] at h2
    obtain ⟨q, ts', rfl⟩ := List.exists_cons_of_ne_nil hne
    obtain ⟨q', ts'', rfl⟩ := List.exists_cons_of_ne_nil (l := ts') (by rintro rfl; simp at h2)
    exact ⟨[q'], .inr (.inr (.inr ⟨rfl, q, q', _, rfl, htl⟩)), hfit _ (by simp)⟩

/-! ### every run adds errors -/

theorem modes_sound {d : Fin n → Nat} (hd : ∀ i, 2 ≤ d i ∧ d i ≤ 7) {g : PyGate} (hg : Common d g) {rng : Misim.Chance ℝ} (hrng : Faithful rng) :
    ∀ (l : List (String × Noise ℝ)) (s : Misim.NSt),
    (∀ e ∈ l, e.1 ∈ ["local", "nonlocal", "all", "control", "target"] ∧ (e.1 = "target" → 2 ≤ g.gate.target.lines.length) ∧
      (e.1 = "all" → (g.tag = "rxy" ∨ g.tag = "rz" ∨ g.tag = "virtrz") → ∀ q, ∃ a b : Fin (d q), a < b ∧ TurnedLevels g (d q) a b)) →
    ∃ blocks k, List.Forall₂ (OneEntry d g) l blocks ∧ (∀ h ∈ blocks.flatten, Common d h) ∧
      l.foldlM (Misim.applyMode rng (List.ofFn d) (readInstr g)) s = .ok ⟨s.out ++ blocks.flatten.map readInstr, k⟩
  | [], s, _ => ⟨[], s.drawn, .nil, by simp, by simp [pure, Except.pure]⟩
  | e :: l, s, h => by
    obtain ⟨lines, hl, hfit⟩ := lines_exist hg (h e (by simp))
    obtain ⟨mode, p⟩ := e
    generalize hx : rng s.drawn p.depolarizing = x
    generalize hz : rng (s.drawn + 1) p.dephasing = z
    have hxs : ∃ xs, (if x then List.Forall₂ (DepolError d g) lines xs else xs = []) ∧ ∀ e ∈ xs, Common d e := by
      cases x
      · exact ⟨[], by simp⟩
      · simpa using forall₂_exists lines fun q hq => depol_exists hd g q fun hr => hfit hr q hq
    have hzs : ∃ zs, (if z then List.Forall₂ (DephaseError d g) lines zs else zs = []) ∧ ∀ e ∈ zs, Common d e := by
      cases z
      · exact ⟨[], by simp⟩
      · simpa using forall₂_exists lines fun q hq => dephase_exists hd g q fun hr => hfit hr q hq
    obtain ⟨xs, hxs, hcx⟩ := hxs
    obtain ⟨zs, hzs, hcz⟩ := hzs
    have hstep := applyMode_ok hd hg (e := (mode, p)) hl hxs hzs rng s hx hz
    obtain ⟨blocks, k, hb, hc, hrun⟩ := modes_sound hd hg hrng l ⟨s.out ++ (xs ++ zs).map readInstr, s.drawn + 2⟩ fun e he => h e (by simp [he])
    refine ⟨(xs ++ zs) :: blocks, k, .cons (.mk mode p lines x z xs zs hl (hx ▸ hrng _ _) (hz ▸ hrng _ _) hxs hzs) hb, ?_, ?_⟩
    · intro h hh
      rw [List.flatten_cons, List.mem_append, List.mem_append] at hh
      rcases hh with (hh | hh) | hh
      · exact hcx h hh
      · exact hcz h hh
      · exact hc h hh
    · rw [List.foldlM_cons, hstep]
      simp only [bind, Except.bind]
      rw [hrun]
      simp

theorem generate_sound {d : Fin n → Nat} (hd : ∀ i, 2 ≤ d i ∧ d i ≤ 7) {noise : PyDict String (PyDict String (Noise ℝ))} (hk : Keyed noise)
    {rng : Misim.Chance ℝ} (hrng : Faithful rng) {m : List (String × List (String × Noise ℝ))}
    (hm : ∀ tag, m.lookup tag = (PyDict.get? noise tag).map sortModes) : ∀ (gs : List PyGate) (s : Misim.NSt), (∀ g ∈ gs, Common d g) →
    Applicable d noise gs → ∃ gs' k, WithErrors d noise gs gs' ∧ (∀ g ∈ gs', Common d g) ∧
      (gs.map readInstr).foldlM (Misim.stepGate rng (List.ofFn d) m) s =
        .ok ⟨s.out ++ gs'.map readInstr, k⟩
  | [], s, _, _ => ⟨[], s.drawn, .nil, by simp, by simp [pure, Except.pure]⟩
  | g :: gs, s, hc, ha => by
    have ha' : Applicable d noise gs := fun g' hg' => ha g' (by simp [hg'])
    have hc' : ∀ g' ∈ gs, Common d g' := fun g' hg' => hc g' (by simp [hg'])
    have ht : (readInstr g).tag = g.tag := rfl
    rcases hget : PyDict.get? noise g.tag with _ | modes
    · obtain ⟨gs', k, h1, h2, h3⟩ := generate_sound hd hk hrng hm gs { s with out := s.out ++ [readInstr g] } hc' ha'
      refine ⟨g :: gs', k, .quiet g gs gs' hget h1, ?_, ?_⟩
      · simpa using ⟨hc g (by simp), h2⟩
      · rw [List.map_cons, List.foldlM_cons, Misim.stepGate]
        simp only [ht, hm, hget, Option.map_none, bind, Except.bind, pure, Except.pure] at h3 ⊢
        rw [h3]
        simp
    · have hnd : (PyDict.keys modes).Nodup := hk.2 _ (mem_of_get? hget)
      obtain ⟨hp, hs⟩ := sortModes_ok modes hnd
      obtain ⟨blocks, k1, hb, hcb, hrun⟩ := modes_sound hd (hc g (by simp)) hrng (sortModes modes) { s with out := s.out ++ [readInstr g] }
        fun e he => ha g (by simp) modes hget e (hp.mem_iff.1 he)
      obtain ⟨gs', k, h1, h2, h3⟩ := generate_sound hd hk hrng hm gs ⟨s.out ++ [readInstr g] ++ blocks.flatten.map readInstr, k1⟩ hc' ha'
      refine ⟨g :: (blocks.flatten ++ gs'), k, .noisy g gs gs' modes _ blocks hget hp hs hb h1, ?_, ?_⟩
      · intro h hh
        rw [List.mem_cons, List.mem_append] at hh
        rcases hh with rfl | hh | hh
        · exact hc _ (by simp)
        · exact hcb h hh
        · exact h2 h hh
      · rw [List.map_cons, List.foldlM_cons, Misim.stepGate]
        simp only [ht, hm, hget, Option.map_some, bind, Except.bind, pure, Except.pure] at h3 hrun ⊢
        rw [hrun]
        dsimp only
        rw [h3]
        simp

/-! ### all errors are generated -/

theorem modes_complete {d : Fin n → Nat} (hd : ∀ i, 2 ≤ d i ∧ d i ≤ 7) {g : PyGate} (hg : Common d g) {l : List (String × Noise ℝ)}
    {blocks : List (List PyGate)} (h : List.Forall₂ (OneEntry d g) l blocks) :
    ∃ cs : List (ℝ × Bool), (∀ c ∈ cs, Possible c.1 c.2) ∧ ∀ (rng : Misim.Chance ℝ) (s : Misim.NSt), Agrees rng s.drawn cs →
      l.foldlM (Misim.applyMode rng (List.ofFn d) (readInstr g)) s = .ok ⟨s.out ++ blocks.flatten.map readInstr, s.drawn + cs.length⟩ := by
  induction h with
  | nil => exact ⟨[], by simp, fun rng s _ => by simp [pure, Except.pure]⟩
  | cons he _ ih =>
    obtain ⟨cs, hpos, hrun⟩ := ih
    obtain ⟨mode, p, lines, x, z, xs, zs, hl, hx, hz, hxs, hzs⟩ := he
    refine ⟨(p.depolarizing, x) :: (p.dephasing, z) :: cs, by simpa using ⟨hx, hz, fun a => ⟨fun h => hpos (a, false) h, fun h => hpos (a, true) h⟩⟩, fun rng s hag => ?_⟩
    obtain ⟨h1, h2, h3⟩ := hag
    rw [List.foldlM_cons, applyMode_ok hd hg (e := (mode, p)) hl hxs hzs rng s h1 h2]
    simp only [bind, Except.bind]
    rw [hrun rng ⟨_, s.drawn + 2⟩ h3]
    simp
    omega

theorem generate_complete {d : Fin n → Nat} (hd : ∀ i, 2 ≤ d i ∧ d i ≤ 7) {noise : PyDict String (PyDict String (Noise ℝ))} (hk : Keyed noise)
    {m : List (String × List (String × Noise ℝ))} (hm : ∀ tag, m.lookup tag = (PyDict.get? noise tag).map sortModes)
    {gs gs' : List PyGate} (h : WithErrors d noise gs gs') (hc : ∀ g ∈ gs, Common d g) :
    ∃ cs : List (ℝ × Bool), (∀ c ∈ cs, Possible c.1 c.2) ∧ ∀ (rng : Misim.Chance ℝ) (s : Misim.NSt), Agrees rng s.drawn cs →
      (gs.map readInstr).foldlM (Misim.stepGate rng (List.ofFn d) m) s =
        .ok ⟨s.out ++ gs'.map readInstr, s.drawn + cs.length⟩ := by
  induction h with
  | nil => exact ⟨[], by simp, fun rng s _ => by simp [pure, Except.pure]⟩
  | quiet g gs gs' hget _ ih =>
    obtain ⟨cs, hpos, hrun⟩ := ih fun g' hg' => hc g' (by simp [hg'])
    refine ⟨cs, hpos, fun rng s hag => ?_⟩
    have ht : (readInstr g).tag = g.tag := rfl
    have h3 := hrun rng { s with out := s.out ++ [readInstr g] } hag
    rw [List.map_cons, List.foldlM_cons, Misim.stepGate]
    simp only [ht, hm, hget, Option.map_none, bind, Except.bind, pure, Except.pure] at h3 ⊢
    rw [h3]
    simp
  | noisy g gs gs' modes l blocks hget hp hs hb _ ih =>
    obtain ⟨cs2, hpos2, hrun2⟩ := ih fun g' hg' => hc g' (by simp [hg'])
    obtain ⟨cs1, hpos1, hrun1⟩ := modes_complete hd (hc g (by simp)) hb
    have hnd : (PyDict.keys modes).Nodup := hk.2 _ (mem_of_get? hget)
    obtain ⟨hp', hs'⟩ := sortModes_ok modes hnd
    obtain rfl : l = sortModes modes := sorted_unique (hp.trans hp'.symm) hs hs'
    refine ⟨cs1 ++ cs2, ?_, fun rng s hag => ?_⟩
    · intro c hc
      rcases List.mem_append.1 hc with h | h
      · exact hpos1 c h
      · exact hpos2 c h
    · obtain ⟨ha1, ha2⟩ := (agrees_append rng s.drawn cs1 cs2).1 hag
      have ht : (readInstr g).tag = g.tag := rfl
      have h1 := hrun1 rng { s with out := s.out ++ [readInstr g] } ha1
      have h2 := hrun2 rng ⟨s.out ++ [readInstr g] ++ blocks.flatten.map readInstr, s.drawn + cs1.length⟩ ha2
      rw [List.map_cons, List.foldlM_cons, Misim.stepGate]
      simp only [ht, hm, hget, Option.map_some, bind, Except.bind, pure, Except.pure] at h1 h2 ⊢
      rw [h1]
      dsimp only
      rw [h2]
      simp
      omega

end Qudits
