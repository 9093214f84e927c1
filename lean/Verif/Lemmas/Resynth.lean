import Verif.Lemmas.Lanes
import Verif.Lemmas.GateArrays
import Verif.Lemmas.Noise
/- Lemmas about grouping and merging runs of single-qudit gates. -/
namespace Qudits.Resynth
open Spec Lanes
variable {β : Type}

/-! ### grouping -/

/-- what `groupStep` does to the groups of a line the gate acts on -/
def rawStep (gs : List (List (LaneItem β))) (t : LaneItem β) : List (List (LaneItem β)) :=
  if t.2.single then pushSingle gs t else gs ++ [[t], []]

theorem get?_sets (qs : List Int) (hqs : qs.Nodup) (d : PyDict Int (List (List (LaneItem β)))) (q : Int) (t : LaneItem β) :
    (PyDict.get? (qs.foldl (fun d q => PyDict.set d q ((PyDict.get? d q).getD [] ++ [[t], []])) d) q).getD [] =
      (PyDict.get? d q).getD [] ++ (if q ∈ qs then [[t], []] else []) := by
  induction qs generalizing d with
  | nil => simp
  | cons k qs ih =>
    rw [List.foldl_cons, ih (List.nodup_cons.1 hqs).2]
    by_cases h : q = k
    · subst h
      rw [PyDict.get?_set_self, if_neg (List.nodup_cons.1 hqs).1, if_pos (by simp)]; simp
    · rw [PyDict.get?_set_ne _ _ _ _ (Ne.symm h)]
      congr 1
      simp [h]

theorem groupStep_ok (d : PyDict Int (List (List (LaneItem β)))) (t : LaneItem β) (ht : WellFormed t.2) :
    ∃ d', groupStep d t = .ok d' ∧
      ∀ q, Touches q t.2 → (PyDict.get? d' q).getD [] = rawStep ((PyDict.get? d q).getD []) t := by
  unfold groupStep rawStep
  rcases ht with ⟨hs, p, hp⟩ | ⟨hs, qs, _, hnd, hqs⟩
  · have htt : ∀ q, Touches q t.2 ↔ q = p := by
      intro q; unfold Touches; rw [hp]; simp [Target.lines]
    rw [hs, hp]
    refine ⟨_, rfl, ?_⟩
    intro q hq
    rw [htt] at hq
    subst hq
    rw [PyDict.get?_set_self, if_pos rfl]; rfl
  · have htt : ∀ q, Touches q t.2 ↔ q ∈ qs := by
      intro q; unfold Touches; rw [hqs]; simp [Target.lines]
    rw [hs, hqs]
    refine ⟨_, rfl, ?_⟩
    intro q hq
    rw [htt] at hq
    rw [get?_sets _ hnd, if_pos hq, if_neg (by simp)]

theorem fold_group (q : Int) (L : List (LaneItem β)) (hwf : ∀ t ∈ L, WellFormed t.2) (hq : ∀ t ∈ L, Touches q t.2)
    (d0 : PyDict Int (List (List (LaneItem β)))) : ∃ d, L.foldlM groupStep d0 = .ok d ∧
      (PyDict.get? d q).getD [] = L.foldl rawStep ((PyDict.get? d0 q).getD []) := by
  induction L generalizing d0 with
  | nil => exact ⟨d0, rfl, rfl⟩
  | cons t L ih =>
    obtain ⟨d1, h1, h2⟩ := groupStep_ok d0 t (hwf t (by simp))
    obtain ⟨d, e1, e2⟩ := ih (fun s hs => hwf s (List.mem_cons_of_mem _ hs))
      (fun s hs => hq s (List.mem_cons_of_mem _ hs)) d1
    refine ⟨d, ?_, ?_⟩
    · rw [List.foldlM_cons, h1]; exact e1
    · rw [e2, h2 q (hq t (by simp))]; rfl

def IsEnt (g : List (LaneItem β)) : Prop := ∃ t, g = [t] ∧ t.2.single = false
def IsRun (g : List (LaneItem β)) : Prop := g ≠ [] ∧ ∀ t ∈ g, t.2.single = true

/-- the groups `F` of a lane -/
structure Grouping (L : List (LaneItem β)) (F : List (List (LaneItem β))) : Prop where
  flat : F.flatten = L
  kinds : ∀ g ∈ F, IsEnt g ∨ IsRun g
  alternate : F.IsChain fun g g' => IsEnt g ∨ IsEnt g'

/-- without the empty groups -/
def nonEmpty (gs : List (List (LaneItem β))) : List (List (LaneItem β)) := gs.filter fun g => !g.isEmpty

theorem nonEmpty_snoc (gs : List (List (LaneItem β))) (g : List (LaneItem β)) (h : g ≠ []) :
    nonEmpty (gs ++ [g]) = nonEmpty gs ++ [g] := by
  unfold nonEmpty
  rw [List.filter_append]
  cases g with
  | nil => exact absurd rfl h
  | cons => rfl

theorem nonEmpty_snoc_nil (gs : List (List (LaneItem β))) : nonEmpty (gs ++ [[]]) = nonEmpty gs := by
  unfold nonEmpty
  rw [List.filter_append]
  simp

theorem Grouping.snoc {L : List (LaneItem β)} {F : List (List (LaneItem β))} (hF : Grouping L F) {g : List (LaneItem β)}
    (hk : IsEnt g ∨ IsRun g) (hc : ∀ x ∈ F.getLast?, IsEnt x ∨ IsEnt g) : Grouping (L ++ g) (F ++ [g]) := by
  refine ⟨?_, ?_, ?_⟩
  · rw [List.flatten_append, hF.flat]; simp
  · intro g' hg'
    rw [List.mem_append, List.mem_singleton] at hg'
    rcases hg' with h | h
    · exact hF.kinds g' h
    · subst h; exact hk
  · rw [List.isChain_append]
    refine ⟨hF.alternate, List.IsChain.singleton _, ?_⟩
    intro x hx y hy
    simp at hy
    subst hy
    exact hc x hx

theorem raw_grouping (L : List (LaneItem β)) : Grouping L (nonEmpty (L.foldl rawStep [])) ∧
    (L.foldl rawStep [] = [] ∨ ∃ R g, L.foldl rawStep [] = R ++ [g] ∧
      ((g = [] ∧ ∀ x ∈ (nonEmpty R).getLast?, IsEnt x) ∨ IsRun g)) := by
  induction L using List.reverseRecOn with
  | nil => exact ⟨⟨rfl, by simp [nonEmpty], List.IsChain.nil⟩, Or.inl rfl⟩
  | append_singleton L t ih =>
    rw [List.foldl_append, List.foldl_cons, List.foldl_nil]
    generalize L.foldl rawStep [] = raw at ih ⊢
    obtain ⟨hF, hraw⟩ := ih
    unfold rawStep
    by_cases hs : t.2.single = true
    · rw [if_pos hs]
      have hrun : IsRun [t] := ⟨by simp, by simpa using hs⟩
      rcases hraw with rfl | ⟨R, g, rfl, ⟨rfl, hl⟩ | hg⟩
      · have hp : pushSingle ([] : List (List (LaneItem β))) t = [] ++ [[t]] := rfl
        rw [hp]
        refine ⟨?_, Or.inr ⟨[], [t], rfl, Or.inr hrun⟩⟩
        rw [nonEmpty_snoc _ _ (by simp)]
        exact hF.snoc (Or.inr hrun) (by simp [nonEmpty])
      · have hp : pushSingle (R ++ [[]]) t = R ++ [[t]] := by unfold pushSingle; simp
        rw [hp]
        refine ⟨?_, Or.inr ⟨R, [t], rfl, Or.inr hrun⟩⟩
        rw [nonEmpty_snoc_nil] at hF
        rw [nonEmpty_snoc _ _ (by simp)]
        exact hF.snoc (Or.inr hrun) (fun x hx => Or.inl (hl x hx))
      · have hp : pushSingle (R ++ [g]) t = R ++ [g ++ [t]] := by unfold pushSingle; simp
        have hrun : IsRun (g ++ [t]) := by
          refine ⟨by simp, ?_⟩
          intro s hs'
          rw [List.mem_append, List.mem_singleton] at hs'
          rcases hs' with h | h
          · exact hg.2 s h
          · subst h; exact hs
        rw [hp]
        refine ⟨?_, Or.inr ⟨R, g ++ [t], rfl, Or.inr hrun⟩⟩
        rw [nonEmpty_snoc _ _ hg.1] at hF
        rw [nonEmpty_snoc _ _ hrun.1]
        have hR : Grouping (nonEmpty R).flatten (nonEmpty R) := by
          refine ⟨rfl, fun x hx => hF.kinds x (by simp [hx]), ?_⟩
          have := hF.alternate
          rw [List.isChain_append] at this
          exact this.1
        have hfl : L = (nonEmpty R).flatten ++ g := by
          rw [← hF.flat, List.flatten_append]; simp
        rw [hfl, List.append_assoc]
        refine hR.snoc (Or.inr hrun) ?_
        intro x hx
        have := hF.alternate
        rw [List.isChain_append] at this
        rcases this.2.2 x hx g (by simp) with h | h
        · exact Or.inl h
        · exfalso
          obtain ⟨s, rfl, hs2⟩ := h
          have := hg.2 s (by simp)
          rw [hs2] at this; cases this
    · have hs' : t.2.single = false := by simpa using hs
      rw [if_neg hs]
      have hent : IsEnt [t] := ⟨t, rfl, hs'⟩
      have he : raw ++ [[t], []] = (raw ++ [[t]]) ++ [[]] := by simp
      rw [he, nonEmpty_snoc_nil, nonEmpty_snoc _ _ (by simp)]
      refine ⟨hF.snoc (Or.inl hent) (fun x _ => Or.inr hent), Or.inr ⟨raw ++ [[t]], [], rfl, Or.inl ⟨rfl, ?_⟩⟩⟩
      rw [nonEmpty_snoc _ _ (by simp)]
      intro x hx
      simp at hx
      subst hx
      exact hent

theorem get?_map_snd {γ δ : Type} (f : γ → δ) (d : PyDict Int γ) (q : Int) :
    PyDict.get? (d.map fun kv => (kv.1, f kv.2)) q = (PyDict.get? d q).map f := by
  induction d with
  | nil => rfl
  | cons kv d ih =>
    obtain ⟨k, v⟩ := kv
    rw [List.map_cons]
    by_cases h : k = q
    · simp [PyDict.get?, h]
    · simp only [PyDict.get?, h, if_false]; exact ih

section
variable {α : Type} [AddCommMonoid α] [Mul α] [One α]

/-- the groups of a non-empty lane -/
theorem groupsOf_ok (q : Int) (L : List (LaneItem (Arr2 α))) (hne : L ≠ []) (hwf : ∀ t ∈ L, WellFormed t.2)
    (hq : ∀ t ∈ L, Touches q t.2) : ∃ F, groupsOf q L = .ok F ∧ Grouping L F := by
  obtain ⟨d, h1, h2⟩ := fold_group q L hwf hq []
  have hF := (raw_grouping L).1
  have h2' : (PyDict.get? d q).getD [] = L.foldl rawStep [] := h2
  cases hd : PyDict.get? d q with
  | none =>
    rw [hd] at h2'
    rw [← h2'] at hF
    exact absurd hF.flat.symm (by simpa [nonEmpty] using hne)
  | some gs =>
    rw [hd] at h2'
    simp only [Option.getD_some] at h2'
    refine ⟨nonEmpty (L.foldl rawStep []), ?_, hF⟩
    unfold groupsOf findConsecutive
    rw [h1]
    change (match PyDict.get? (d.map fun kv => (kv.1, kv.2.filter fun g => !g.isEmpty)) q with
      | some gs => Except.ok gs
      | none => Except.error PyErr.keyError) = _
    rw [get?_map_snd, hd, h2']
    rfl
end

/-! ### merging -/

theorem forall₂_mem_right {γ δ : Type} {R : γ → δ → Prop} {l : List γ} {m : List δ} (h : List.Forall₂ R l m) (y : δ)
    (hy : y ∈ m) : ∃ x ∈ l, R x y := by
  induction h with
  | nil => simp at hy
  | cons hab _ ih =>
    rcases List.mem_cons.1 hy with e | e
    · subst e; exact ⟨_, by simp, hab⟩
    · obtain ⟨x, hx, hr⟩ := ih e
      exact ⟨x, List.mem_cons_of_mem _ hx, hr⟩

theorem forall₂_mem_left {γ δ : Type} {R : γ → δ → Prop} {l : List γ} {m : List δ} (h : List.Forall₂ R l m) (x : γ)
    (hx : x ∈ l) : ∃ y ∈ m, R x y := by
  induction h with
  | nil => simp at hx
  | cons hab _ ih =>
    rcases List.mem_cons.1 hx with e | e
    · subst e; exact ⟨_, by simp, hab⟩
    · obtain ⟨y, hy, hr⟩ := ih e
      exact ⟨y, List.mem_cons_of_mem _ hy, hr⟩

theorem forall₂_pairwise {γ δ : Type} {R : γ → δ → Prop} {P : γ → γ → Prop} {Q : δ → δ → Prop} {l : List γ} {m : List δ}
    (h : List.Forall₂ R l m) (hP : l.Pairwise P)
    (hPQ : ∀ a ∈ l, ∀ b ∈ l, ∀ x y, P a b → R a x → R b y → Q x y) : m.Pairwise Q := by
  induction h with
  | nil => exact List.Pairwise.nil
  | @cons a x l m hab hl ih =>
    rw [List.pairwise_cons] at hP
    refine List.Pairwise.cons ?_ (ih hP.2 fun a ha b hb => hPQ a (List.mem_cons_of_mem _ ha) b (List.mem_cons_of_mem _ hb))
    intro y hy
    obtain ⟨b, hb, hr⟩ := forall₂_mem_right hl y hy
    exact hPQ a (by simp) b (List.mem_cons_of_mem _ hb) x y (hP.1 b hb) hab hr

theorem forall₂_chain {γ δ : Type} {R : γ → δ → Prop} {P : γ → γ → Prop} {Q : δ → δ → Prop} {l : List γ} {m : List δ}
    (h : List.Forall₂ R l m) (hP : l.IsChain P) (hPQ : ∀ a b x y, P a b → R a x → R b y → Q x y) : m.IsChain Q := by
  induction h with
  | nil => exact List.IsChain.nil
  | @cons a x l m hab hl ih =>
    cases hl with
    | nil => exact List.IsChain.singleton _
    | @cons b y l m hby hl =>
      rw [List.isChain_cons_cons] at hP ⊢
      exact ⟨hPQ a b x y hP.1 hab hby, ih hP.2⟩

/-- item `t` replaces group `g` on line `q`; new objects get identities in `[lo, hi)` -/
def Repl {α : Type} [AddCommMonoid α] [Mul α] [One α] (dim : Nat) (q : Int) (lo hi : Nat) (g : List (LaneItem (Arr2 α)))
    (t : LaneItem (Arr2 α)) : Prop :=
  (g = [t] ∧ t.2.single = false) ∨
  (IsRun g ∧ (∃ x, g.head? = some x ∧ t.1 = x.1) ∧ t.2.single = true ∧ t.2.target = .one q ∧
    lo ≤ t.2.oid ∧ t.2.oid < hi ∧ runMatrix dim g = .ok t.2.body)

section
variable {α : Type} [NonAssocSemiring α]

theorem runMatrix_ok (dim : Nat) (g : List (LaneItem (Arr2 α)))
    (hg : ∀ t ∈ g, t.2.body.rows = dim ∧ t.2.body.cols = dim) (m0 : Arr2 α) (h0 : m0.rows = dim ∧ m0.cols = dim) :
    ∃ m, g.foldlM (fun m t => Arr2.matmul t.2.body m) m0 = .ok m ∧ m.rows = dim ∧ m.cols = dim := by
  induction g generalizing m0 with
  | nil => exact ⟨m0, rfl, h0⟩
  | cons t g ih =>
    obtain ⟨A, hA, h1, h2, -⟩ := matmul_ok t.2.body m0 dim (hg t (by simp)).1 (hg t (by simp)).2 h0.1 h0.2
    obtain ⟨m, hm, h⟩ := ih (fun s hs => hg s (List.mem_cons_of_mem _ hs)) A ⟨h1, h2⟩
    exact ⟨m, by rw [List.foldlM_cons, hA]; exact hm, h⟩

theorem mergeGroups_ok (dims : List Nat) (q : Int) (dim : Nat) (hdim : dimOf dims q = .ok dim) (next : Nat)
    (F : List (List (LaneItem (Arr2 α)))) (hk : ∀ g ∈ F, IsEnt g ∨ IsRun g)
    (hshape : ∀ g ∈ F, ∀ t ∈ g, t.2.single = true → t.2.body.rows = dim ∧ t.2.body.cols = dim) :
    ∃ ts next', mergeGroups dims q next F = .ok (ts, next') ∧ next ≤ next' ∧
      List.Forall₂ (Repl dim q next next') F ts ∧
      ts.Pairwise (fun x y => x.2.single = true → y.2.single = true → x.2.oid < y.2.oid) := by
  induction F generalizing next with
  | nil => exact ⟨[], next, rfl, le_rfl, List.Forall₂.nil, List.Pairwise.nil⟩
  | cons g F ih =>
    rcases hk g (by simp) with ⟨t, rfl, hs⟩ | hrun
    · obtain ⟨ts, next', h1, h2, h3, h4⟩ := ih next (fun g hg => hk g (List.mem_cons_of_mem _ hg))
        (fun g hg => hshape g (List.mem_cons_of_mem _ hg))
      have hm : mergeGroup dims q next [t] = .ok (t, next) := by
        unfold mergeGroup
        dsimp only
        rw [if_neg (by rw [hs]; simp)]
      refine ⟨t :: ts, next', ?_, h2, List.Forall₂.cons (Or.inl ⟨rfl, hs⟩) h3, List.Pairwise.cons ?_ h4⟩
      · unfold mergeGroups
        rw [hm]
        change (mergeGroups dims q next F >>= fun p => pure (t :: p.1, p.2)) = _
        rw [h1]; rfl
      · intro y _ hx
        rw [hs] at hx; cases hx
    · cases g with
      | nil => exact absurd rfl hrun.1
      | cons x g' =>
        obtain ⟨m, hm, _, _⟩ := runMatrix_ok dim (x :: g') (fun t ht => hshape _ (by simp) t ht (hrun.2 t ht))
          (Arr2.identity dim) ⟨rfl, rfl⟩
        have hmg : mergeGroup dims q next (x :: g') = .ok ((x.1, ⟨next, true, .one q, m⟩), next + 1) := by
          unfold mergeGroup
          dsimp only
          rw [if_pos (hrun.2 x (by simp)), hdim]
          change (runMatrix dim (x :: g') >>= fun m => pure ((x.1, (⟨next, true, .one q, m⟩ : Op (Arr2 α))), next + 1)) = _
          unfold runMatrix
          rw [hm]; rfl
        obtain ⟨ts, next', h1, h2, h3, h4⟩ := ih (next + 1) (fun g hg => hk g (List.mem_cons_of_mem _ hg))
          (fun g hg => hshape g (List.mem_cons_of_mem _ hg))
        refine ⟨(x.1, ⟨next, true, .one q, m⟩) :: ts, next', ?_, by omega, List.Forall₂.cons ?_ (h3.imp ?_),
          List.Pairwise.cons ?_ h4⟩
        · unfold mergeGroups
          rw [hmg]
          change (mergeGroups dims q (next + 1) F >>= fun p => pure ((x.1, (⟨next, true, .one q, m⟩ : Op (Arr2 α))) :: p.1, p.2)) = _
          rw [h1]; rfl
        · exact Or.inr ⟨hrun, ⟨x, rfl, rfl⟩, rfl, rfl, le_rfl, by dsimp only; omega, hm⟩
        · rintro a b (h | ⟨a1, a2, a3, a4, a5, a6, a7⟩)
          · exact Or.inl h
          · exact Or.inr ⟨a1, a2, a3, a4, by omega, a6, a7⟩
        · intro y hy _ hys
          dsimp only
          obtain ⟨g, hg, hr⟩ : ∃ g ∈ F, Repl dim q (next + 1) next' g y := by
            exact forall₂_mem_right h3 y hy
          rcases hr with ⟨_, h⟩ | ⟨_, _, _, _, h, _⟩
          · rw [hys] at h; cases h
          · omega

/-- line `q` has been processed: its lane `L` was replaced by `ts` -/
def LineDone (dims : List Nat) (q : Int) (lo hi : Nat) (L ts : List (LaneItem (Arr2 α))) : Prop :=
  ∃ dim F, dimOf dims q = .ok dim ∧ Grouping L F ∧ List.Forall₂ (Repl dim q lo hi) F ts ∧
    ts.Pairwise (fun x y => x.2.single = true → y.2.single = true → x.2.oid < y.2.oid)

theorem doLine_ok (dims : List Nat) (d : PyDict Int (List (LaneItem (Arr2 α)))) (next : Nat) (q : Int) (dim : Nat)
    (hdim : dimOf dims q = .ok dim) (hne : (PyDict.get? d q).getD [] ≠ [])
    (hwf : ∀ t ∈ (PyDict.get? d q).getD [], WellFormed t.2) (hq : ∀ t ∈ (PyDict.get? d q).getD [], Touches q t.2)
    (hshape : ∀ t ∈ (PyDict.get? d q).getD [], t.2.single = true → t.2.body.rows = dim ∧ t.2.body.cols = dim) :
    ∃ ts next', doLine dims (d, next) q = .ok (PyDict.set d q ts, next') ∧ next ≤ next' ∧
      LineDone dims q next next' ((PyDict.get? d q).getD []) ts := by
  obtain ⟨F, hF, hG⟩ := groupsOf_ok q _ hne hwf hq
  obtain ⟨ts, next', h1, h2, h3, h4⟩ := mergeGroups_ok dims q dim hdim next F hG.kinds (by
    intro g hg t ht
    apply hshape
    rw [← hG.flat]
    exact List.mem_flatten.2 ⟨g, hg, ht⟩)
  refine ⟨ts, next', ?_, h2, dim, F, hdim, hG, h3, h4⟩
  unfold doLine
  dsimp only
  rw [hF]
  change (mergeGroups dims q next F >>= fun p => pure (PyDict.set d q p.1, p.2)) = _
  rw [h1]; rfl

theorem doLines_ok (dims : List Nat) (d : PyDict Int (List (LaneItem (Arr2 α)))) (next : Nat) (hk : (PyDict.keys d).Nodup)
    (hne : ∀ q ∈ PyDict.keys d, (PyDict.get? d q).getD [] ≠ [])
    (hwf : ∀ q, ∀ t ∈ (PyDict.get? d q).getD [], WellFormed t.2)
    (hq : ∀ q, ∀ t ∈ (PyDict.get? d q).getD [], Touches q t.2)
    (hshape : ∀ q ∈ PyDict.keys d, ∃ dim, dimOf dims q = .ok dim ∧ ∀ t ∈ (PyDict.get? d q).getD [], t.2.single = true →
      t.2.body.rows = dim ∧ t.2.body.cols = dim)
    (ks : List Int) (hks : ks.Nodup) (hsub : ∀ q ∈ ks, q ∈ PyDict.keys d) :
    ∃ (d' : PyDict Int (List (LaneItem (Arr2 α)))) (next' : Nat) (lo hi : Int → Nat),
      ks.foldlM (doLine dims) (d, next) = .ok (d', next') ∧ (PyDict.keys d').Nodup ∧ next ≤ next' ∧
      (∀ q, q ∉ ks → PyDict.get? d' q = PyDict.get? d q) ∧
      (∀ q ∈ ks, LineDone dims q (lo q) (hi q) ((PyDict.get? d q).getD []) ((PyDict.get? d' q).getD []) ∧
        next ≤ lo q ∧ hi q ≤ next') ∧
      (∀ q ∈ ks, ∀ q' ∈ ks, q ≠ q' → hi q ≤ lo q' ∨ hi q' ≤ lo q) := by
  induction ks using List.reverseRecOn with
  | nil => exact ⟨d, next, fun _ => 0, fun _ => 0, rfl, hk, le_rfl, fun _ _ => rfl, by simp, by simp⟩
  | append_singleton ks q ih =>
    have hqks : q ∉ ks := by
      rw [List.nodup_append] at hks
      intro h
      exact hks.2.2 q h q (by simp) rfl
    obtain ⟨d1, n1, lo, hi, h1, h2, h3, h4, h5, h6⟩ := ih (List.nodup_append.1 hks).1 (fun q hq => hsub q (by simp [hq]))
    have hqk := hsub q (by simp)
    obtain ⟨dim, hdim, hsh⟩ := hshape q hqk
    have he := h4 q hqks
    obtain ⟨ts, n2, e1, e2, e3⟩ := doLine_ok dims d1 n1 q dim hdim (by rw [he]; exact hne q hqk)
      (by rw [he]; exact hwf q) (by rw [he]; exact hq q) (by rw [he]; exact hsh)
    rw [he] at e3
    refine ⟨PyDict.set d1 q ts, n2, fun x => if x = q then n1 else lo x, fun x => if x = q then n2 else hi x, ?_,
      PyDict.keys_nodup_set _ _ _ h2, by omega, ?_, ?_, ?_⟩
    · rw [List.foldlM_append, h1]
      change (List.foldlM (doLine dims) (d1, n1) [q]) = _
      rw [List.foldlM_cons, e1]; rfl
    · intro x hx
      rw [List.mem_append, List.mem_singleton, not_or] at hx
      rw [PyDict.get?_set_ne _ _ _ _ (Ne.symm hx.2)]
      exact h4 x hx.1
    · intro x hx
      by_cases hxq : x = q
      · subst hxq
        simp only [if_pos, PyDict.get?_set_self, Option.getD_some]
        exact ⟨e3, h3, le_rfl⟩
      · simp only [if_neg hxq, PyDict.get?_set_ne _ _ _ _ (Ne.symm hxq)]
        have hxks : x ∈ ks := by simpa [hxq] using hx
        obtain ⟨a, b, c⟩ := h5 x hxks
        exact ⟨a, b, by omega⟩
    · intro x hx y hy hxy
      dsimp only
      by_cases hxq : x = q
      · subst hxq
        have hyx : y ≠ x := Ne.symm hxy
        rw [if_pos rfl, if_pos rfl, if_neg hyx, if_neg hyx]
        have := (h5 y (by simpa [hyx] using hy)).2.2
        omega
      · rw [if_neg hxq, if_neg hxq]
        by_cases hyq : y = q
        · subst hyq
          rw [if_pos rfl, if_pos rfl]
          have := (h5 x (by simpa [hxq] using hx)).2.2
          omega
        · rw [if_neg hyq, if_neg hyq]
          exact h6 x (by simpa [hxq] using hx) y (by simpa [hyq] using hy) hxy
end

end Qudits.Resynth
