import Verif.Model.QasmFile
import Verif.Lemmas.QasmCircuit

/-
Paths: what joining a directory and a file name gives.
-/
namespace Qudits.Qasm
open Re Qudits Spec

theorem splitChar_mem (sep : Char) (s : Text) : ∀ w ∈ splitChar sep s, sep ∉ w ∧ ∀ x ∈ w, x ∈ s := by
  induction s with
  | nil =>
    intro w hw
    simp only [splitChar, List.mem_singleton] at hw
    subst hw
    simp
  | cons y s ih =>
    intro w hw
    by_cases hy : y = sep
    · rw [splitChar, if_pos hy] at hw
      rcases List.mem_cons.1 hw with rfl | hw
      · simp
      · exact ⟨(ih w hw).1, fun x hx => List.mem_cons_of_mem _ ((ih w hw).2 x hx)⟩
    · rw [splitChar, if_neg hy] at hw
      cases hs : splitChar sep s with
      | nil => exact absurd hs (splitChar_ne_nil sep s)
      | cons v vs =>
        rw [hs] at hw
        simp only at hw
        rcases List.mem_cons.1 hw with rfl | hw
        · obtain ⟨h1, h2⟩ := ih v (by rw [hs]; simp)
          refine ⟨?_, ?_⟩
          · rw [List.mem_cons, not_or]
            exact ⟨fun e => hy e.symm, h1⟩
          · intro x hx
            rcases List.mem_cons.1 hx with rfl | hx
            · simp
            · exact List.mem_cons_of_mem _ (h2 x hx)
        · obtain ⟨h1, h2⟩ := ih w (by rw [hs]; exact List.mem_cons_of_mem _ hw)
          exact ⟨h1, fun x hx => List.mem_cons_of_mem _ (h2 x hx)⟩

/-- a component of a path -/
def Part (p : Text) : Prop := p ≠ [] ∧ p ≠ ['.'] ∧ '/' ∉ p

theorem pathParts_part (s : Text) : ∀ p ∈ pathParts s, Part p ∧ ∀ x ∈ p, x ∈ s := by
  intro p hp
  simp only [pathParts, List.mem_filter, Bool.and_eq_true, Bool.not_eq_true', bne_iff_ne] at hp
  obtain ⟨h1, h2⟩ := splitChar_mem '/' s p hp.1
  exact ⟨⟨fun e => by rw [e] at hp; simp at hp, hp.2.2, h1⟩, h2⟩

theorem pathParts_single (s : Text) (h : Part s) : pathParts s = [s] := by
  unfold pathParts
  rw [splitChar_single '/' s h.2.2]
  have h1 : s.isEmpty = false := by
    cases s with
    | nil => exact absurd rfl h.1
    | cons a b => rfl
  have h2 : (s != ['.']) = true := by simpa using h.2.1
  simp [h1, h2]

theorem pathRoot_cases (s : Text) : pathRoot s = [] ∨ pathRoot s = ['/'] ∨ pathRoot s = ['/', '/'] := by
  unfold pathRoot
  split <;> simp

theorem pathRoot_plain (s : Text) (h : s.head? ≠ some '/') : pathRoot s = [] := by
  unfold pathRoot
  split <;> first | rfl | (exfalso; exact h rfl)

theorem joinSlash_snoc (ps : List Text) (f : Text) :
    joinSlash (ps ++ [f]) = (ps.map fun p => p ++ ['/']).flatten ++ f := by
  induction ps with
  | nil => rfl
  | cons p ps ih =>
    have : joinSlash (p :: (ps ++ [f])) = p ++ '/' :: joinSlash (ps ++ [f]) := by
      cases hq : ps ++ [f] with
      | nil => simp at hq
      | cons a b => rfl
    rw [List.cons_append, this, ih]
    simp

theorem splitChar_joinSlash (ps : List Text) (h : ∀ p ∈ ps, '/' ∉ p) (hne : ps ≠ []) :
    splitChar '/' (joinSlash ps) = ps := by
  induction ps with
  | nil => exact absurd rfl hne
  | cons p ps ih =>
    cases ps with
    | nil => exact splitChar_single _ _ (h p (by simp))
    | cons q qs =>
      have : joinSlash (p :: q :: qs) = p ++ '/' :: joinSlash (q :: qs) := rfl
      rw [this, splitChar_append _ _ _ (h p (by simp)), ih (fun x hx => h x (by simp [hx])) (by simp)]

theorem filter_parts (ps : List Text) (h : ∀ p ∈ ps, Part p) :
    ps.filter (fun p => !p.isEmpty && p != ['.']) = ps := by
  apply List.filter_eq_self.2
  intro p hp
  obtain ⟨h1, h2, _⟩ := h p hp
  have : p.isEmpty = false := by
    cases p with
    | nil => exact absurd rfl h1
    | cons a b => rfl
  simpa [this] using h2

theorem pathParts_render (root : Text) (ps : List Text) (hroot : root = [] ∨ root = ['/'] ∨ root = ['/', '/'])
    (hps : ∀ p ∈ ps, Part p) : pathParts (renderPath root ps) = ps := by
  have hj : (splitChar '/' (joinSlash ps)).filter (fun p => !p.isEmpty && p != ['.']) = ps := by
    cases ps with
    | nil => rfl
    | cons p ps =>
      rw [splitChar_joinSlash _ (fun x hx => (hps x hx).2.2) (by simp), filter_parts _ hps]
  have hs : ∀ s, (splitChar '/' ('/' :: s)).filter (fun p => !p.isEmpty && p != ['.'])
      = (splitChar '/' s).filter (fun p => !p.isEmpty && p != ['.']) := by
    intro s
    rw [splitChar, if_pos rfl]
    rfl
  unfold renderPath
  split
  · rename_i h
    simp only [Bool.and_eq_true, List.isEmpty_iff] at h
    rw [h.2]
    rfl
  · unfold pathParts
    rcases hroot with rfl | rfl | rfl
    · exact hj
    · rw [List.singleton_append, hs, hj]
    · show (splitChar '/' ('/' :: '/' :: joinSlash ps)).filter _ = ps
      rw [hs, hs, hj]

theorem head_joinSlash (ps : List Text) (hps : ∀ p ∈ ps, Part p) : (joinSlash ps).head? ≠ some '/' := by
  cases ps with
  | nil => simp [joinSlash]
  | cons p ps =>
    obtain ⟨h1, _, h3⟩ := hps p (by simp)
    cases p with
    | nil => exact absurd rfl h1
    | cons a b =>
      have : (joinSlash ((a :: b) :: ps)).head? = some a := by
        cases ps <;> rfl
      rw [this]
      intro e
      cases e
      exact h3 (by simp)

theorem pathRoot_render (root : Text) (ps : List Text) (hroot : root = [] ∨ root = ['/'] ∨ root = ['/', '/'])
    (hps : ∀ p ∈ ps, Part p) : pathRoot (renderPath root ps) = root := by
  have hh := head_joinSlash ps hps
  unfold renderPath
  split
  · rename_i h
    simp only [Bool.and_eq_true, List.isEmpty_iff] at h
    rw [h.1]
    rfl
  · rcases hroot with rfl | rfl | rfl
    · exact pathRoot_plain _ hh
    · cases hj : joinSlash ps with
      | nil => rfl
      | cons a b =>
        rw [hj] at hh
        have ha : a ≠ '/' := fun e => hh (by rw [e]; rfl)
        show pathRoot ('/' :: a :: b) = ['/']
        unfold pathRoot
        split <;> first | rfl | (exfalso; simp_all)
    · cases hj : joinSlash ps with
      | nil => rfl
      | cons a b =>
        rw [hj] at hh
        have ha : a ≠ '/' := fun e => hh (by rw [e]; rfl)
        show pathRoot ('/' :: '/' :: a :: b) = ['/', '/']
        unfold pathRoot
        split <;> first | rfl | (exfalso; simp_all; done) | (rename_i _ h e; cases e; exact absurd rfl (h _))

/-- the path of a joined path is that path -/
theorem normPath_join (dir file : Text) : normPath (joinPath dir file) = joinPath dir file := by
  have key : ∀ root ps, (root = [] ∨ root = ['/'] ∨ root = ['/', '/']) → (∀ p ∈ ps, Part p) →
      normPath (renderPath root ps) = renderPath root ps := by
    intro root ps hr hps
    unfold normPath
    rw [pathRoot_render root ps hr hps, pathParts_render root ps hr hps]
  unfold joinPath
  split
  · apply key _ _ (pathRoot_cases dir)
    intro p hp
    rcases List.mem_append.1 hp with h | h
    · exact (pathParts_part dir p h).1
    · exact (pathParts_part file p h).1
  · exact key _ _ (pathRoot_cases file) fun p hp => (pathParts_part file p hp).1

/-- what stands in front of a file name -/
def dirPrefix (dir : Text) : Text := pathRoot dir ++ ((pathParts dir).map fun p => p ++ ['/']).flatten

theorem joinPath_file (dir file : Text) (h : Part file) : joinPath dir file = dirPrefix dir ++ file := by
  have h1 : pathRoot file = [] := by
    apply pathRoot_plain
    obtain ⟨h1, _, h3⟩ := h
    cases file with
    | nil => exact absurd rfl h1
    | cons a b =>
      intro e
      cases e
      exact h3 (by simp)
  unfold joinPath renderPath dirPrefix
  rw [h1, pathParts_single file h]
  have h2 : ((pathRoot dir).isEmpty && (pathParts dir ++ [file]).isEmpty) = false := by simp
  simp only [List.isEmpty_nil, if_true, h2, Bool.false_eq_true, if_false, joinSlash_snoc, List.append_assoc]

theorem dirPrefix_mem (dir : Text) : ∀ x ∈ dirPrefix dir, x = '/' ∨ x ∈ dir := by
  intro x hx
  unfold dirPrefix at hx
  rcases List.mem_append.1 hx with h | h
  · left
    rcases pathRoot_cases dir with e | e | e <;> rw [e] at h <;> simpa using h
  · obtain ⟨w, hw, hx⟩ := List.mem_flatten.1 h
    obtain ⟨p, hp, rfl⟩ := List.mem_map.1 hw
    rcases List.mem_append.1 hx with h | h
    · exact Or.inr ((pathParts_part dir p hp).2 x h)
    · exact Or.inl (List.mem_singleton.1 h)

theorem hasSub_suffix (sub s : Text) (h : sub ≠ []) : hasSub sub (s ++ sub) = true := by
  induction s with
  | nil =>
    cases sub with
    | nil => exact absurd rfl h
    | cons a b =>
      have : (a :: b).isPrefixOf (a :: b) = true := by simp
      simp [hasSub]
  | cons x s ih => simp [hasSub, ih]

end Qudits.Qasm
