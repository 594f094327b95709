import Verif.Spec.Random
import Verif.Props.Orth
import Verif.Props.Norm

/-!
# Property C64: `TensorTrain.random`
-/

namespace TTS.Props

open TTS Finset

variable {K : Type*} [CommRing K]

theorem asked_eq (shape : List ℕ) (rank : RankArg) : askedRanks shape rank = ranksOf rank shape.length := by
  cases rank <;> rfl

theorem mul_add_lt {a j r n : ℕ} (ha : a < r) (hj : j < n) : a * n + j < r * n := by
  calc a * n + j < a * n + n := by omega
    _ = (a + 1) * n := by ring
    _ ≤ r * n := Nat.mul_le_mul_right _ ha

/-- **C64.** With a rank for every bond, `TensorTrain.random` succeeds for both values of `norm_goal`, except for
`orthog=True` with `trim=False`.  The result has the shape and the ranks asked for, trimmed if `trim` is set (by default
exactly if `orthog` is).  Without `orthog`, and always in the last core, entry `(a, j, b)` of core `i` is the
corresponding random number divided by `sqrt(r n)` (`"norm-1"`) or `sqrt(r)` (`"norm-preserve"`), `r` being the rank to
the left of the core.  With `orthog` all other cores are left-orthogonal and the random numbers are the product of the
core with an upper triangular matrix.  Sizes and ranks may be zero without `orthog`. -/
theorem C64 (env : Env K) (hQ : QRContract env) (shape : List ℕ) (rank : RankArg) (seed : ℕ) (orthog : Bool)
    (trim : Option Bool) (goal : NormGoal) (hl : (askedRanks shape rank).length + 1 = shape.length)
    (ht : orthog = true → trim ≠ some false) (hg : goal ≠ .other)
    (hp : orthog = true → (∀ n ∈ shape, 0 < n) ∧ ∀ r ∈ askedRanks shape rank, 0 < r) :
    ∃ X, TT.random env shape rank seed orthog trim goal = .ok X ∧ X.Valid ∧ X.shape = shape ∧
      X.rank = (if trim.getD orthog then trimRanks shape (askedRanks shape rank) else askedRanks shape rank) ∧
      (∀ i < shape.length, orthog = false ∨ i + 1 = shape.length →
        ∀ a < (Spec.bonds X.rank).getD i 0, ∀ j < shape.getD i 0, ∀ b < (Spec.bonds X.rank).getD (i + 1) 0,
          (X.cores.getD i (ND.zeros [])).get [a, j, b] = ttDraw env shape X.rank seed i a j b
            * env.invSqrt (if goal = .norm1 then (Spec.bonds X.rank).getD i 0 * shape.getD i 0
                else (Spec.bonds X.rank).getD i 0)) ∧
      (orthog = true → ∀ i, i + 1 < shape.length → (X.cores.getD i (ND.zeros [])).LeftOrthogonal ∧
        ∃ U : ℕ → ℕ → K, (∀ t < (Spec.bonds X.rank).getD (i + 1) 0, ∀ b < t, U t b = 0) ∧
          ∀ a < (Spec.bonds X.rank).getD i 0, ∀ j < shape.getD i 0, ∀ b < (Spec.bonds X.rank).getD (i + 1) 0,
            ∑ t ∈ range ((Spec.bonds X.rank).getD (i + 1) 0), (X.cores.getD i (ND.zeros [])).get [a, j, t] * U t b
              = ttDraw env shape X.rank seed i a j b) := by
  rw [asked_eq] at *
  set rk := if trim.getD orthog then trimRanks shape (ranksOf rank shape.length) else ranksOf rank shape.length with hrk
  have hrl : rk.length + 1 = shape.length := by
    rw [hrk]; split
    · rw [trimRanks_length _ _ hl, hl]
    · exact hl
  have hproc : processTTRank rank shape (trim.getD orthog) = .ok rk := process_ok _ (by omega) (by omega)
  have hfit : orthog = true → ∀ i, i + 1 < shape.length →
      (Spec.bonds rk).getD (i + 1) 0 ≤ (Spec.bonds rk).getD i 0 * shape.getD i 0 := by
    intro ho i hi
    have : trim.getD orthog = true := by
      cases trim with
      | none => exact ho
      | some b => cases b with
        | true => rfl
        | false => exact absurd rfl (ht ho)
    rw [hrk, if_pos this]
    exact C03_left shape _ hl (hp ho).1 (hp ho).2 i (by omega)
  -- the cores
  set M : ℕ → ND K := fun i => ND.ofFn [(Spec.bonds rk).getD i 0 * shape.getD i 0, (Spec.bonds rk).getD (i + 1) 0] fun ij =>
    env.randomNormal (env.genState seed shape.length i)
      ((Spec.bonds rk).getD i 0 * shape.getD i 0 * (Spec.bonds rk).getD (i + 1) 0)
      (ravel [(Spec.bonds rk).getD i 0 * shape.getD i 0, (Spec.bonds rk).getD (i + 1) 0] ij) with hM
  set N : ℕ → ND K := fun i => if orthog = true ∧ i + 1 < shape.length then (env.qr (M i)).1
    else (M i).smul (env.invSqrt (if goal = .norm1 then (Spec.bonds rk).getD i 0 * shape.getD i 0
                else (Spec.bonds rk).getD i 0)) with hN
  have hMs : ∀ i, (M i).shape = [(Spec.bonds rk).getD i 0 * shape.getD i 0, (Spec.bonds rk).getD (i + 1) 0] := fun _ => rfl
  have hNs : ∀ i, (N i).shape = [(Spec.bonds rk).getD i 0 * shape.getD i 0, (Spec.bonds rk).getD (i + 1) 0] := by
    intro i
    rw [hN]
    beta_reduce
    split
    · next h =>
      rw [(hQ _ _ _ (hMs i)).shapeQ, min_eq_right (hfit h.1 i h.2)]
    · rfl
  have hcore : ∀ i ∈ List.range shape.length, TT.randomCore env shape (1 :: rk ++ [1]) seed orthog goal i
      = .ok ((N i).reshape [(Spec.bonds rk).getD i 0, shape.getD i 0, (Spec.bonds rk).getD (i + 1) 0]) := by
    intro i hi
    have hr : (N i).reshape? [(Spec.bonds rk).getD i 0, shape.getD i 0, (Spec.bonds rk).getD (i + 1) 0]
        = .ok ((N i).reshape [(Spec.bonds rk).getD i 0, shape.getD i 0, (Spec.bonds rk).getD (i + 1) 0]) := by
      unfold ND.reshape?
      rw [hNs, if_pos (by simp [mul_assoc])]
    rw [← hr]
    show (if orthog = true ∧ i + 1 < shape.length then (env.qr (M i)).1.reshape? _ else _) = _
    by_cases h : orthog = true ∧ i + 1 < shape.length
    · rw [if_pos h, hN]
      beta_reduce
      rw [if_pos h]
      rfl
    · rw [if_neg h, hN]
      beta_reduce
      rw [if_neg h]
      cases goal with
      | norm1 => rfl
      | preserve => rfl
      | other => exact absurd rfl hg
  have hC : ∀ i < shape.length, ((List.range shape.length).map fun i =>
      (N i).reshape [(Spec.bonds rk).getD i 0, shape.getD i 0, (Spec.bonds rk).getD (i + 1) 0]).getD i (ND.zeros [])
      = (N i).reshape [(Spec.bonds rk).getD i 0, shape.getD i 0, (Spec.bonds rk).getD (i + 1) 0] :=
    fun i hi => getD_map_range _ _ _ _ hi
  have hdraw : ∀ i a j b, a < (Spec.bonds rk).getD i 0 → j < shape.getD i 0 → b < (Spec.bonds rk).getD (i + 1) 0 →
      (M i).get [a * shape.getD i 0 + j, b] = ttDraw env shape rk seed i a j b := by
    intro i a j b ha hj hb
    rw [hM]
    beta_reduce
    rw [ND.ofFn_get (show InR [_, _] [_, _] from ⟨mul_add_lt ha hj, hb, trivial⟩)]
    simp [ttDraw, ravel]
  obtain ⟨v1, v2, v3⟩ := cores_tt (K := K) (cs := (List.range shape.length).map fun i =>
      (N i).reshape [(Spec.bonds rk).getD i 0, shape.getD i 0, (Spec.bonds rk).getD (i + 1) 0]) (rk := rk) (sh := shape)
      (fun k hk => by rw [hC k (by simpa using hk)]; rfl) (by omega) (by simp) (by omega)
  refine ⟨⟨_⟩, ?_, v1, v2, v3, ?_⟩
  · unfold TT.random
    simp only []
    rw [if_neg, hproc]
    · simp only []
      rw [mapM_ok hcore]; rfl
    · rintro ⟨h1, h2⟩
      cases trim with
      | none => rw [Option.getD_none, h1] at h2; simp at h2
      | some b => exact ht h1 (by rw [← h2]; rfl)
  · rw [v3]
    constructor
    · intro i hi ho a ha j hj b hb
      show ND.get (List.getD _ i _) _ = _
      rw [hC i hi, ND.reshape_split12 (hNs i) _ _ _ hj, ← hdraw i a j b ha hj hb, hN]
      beta_reduce
      rw [if_neg (by rintro ⟨h1, h2⟩; rcases ho with h | h; · rw [h] at h1; simp at h1
                     · omega), ND.smul_get]
    · intro ho i hi
      have hq := hQ _ _ _ (hMs i)
      have hf := min_eq_right (hfit ho i hi)
      have hNi : N i = (env.qr (M i)).1 := by rw [hN]; exact if_pos ⟨ho, hi⟩
      constructor
      · show ND.LeftOrthogonal (List.getD _ i _)
        rw [hC i (by omega)]
        intro s hs t ht
        have hs : s < (Spec.bonds rk).getD (i + 1) 0 := hs
        have ht : t < (Spec.bonds rk).getD (i + 1) 0 := ht
        have := hq.orth s (by rw [hf]; exact hs) t (by rw [hf]; exact ht)
        rw [← this, range_mul_sum]
        show ∑ a ∈ range ((Spec.bonds rk).getD i 0), ∑ j ∈ range (shape.getD i 0), _ = _
        refine sum_congr rfl fun a _ => sum_congr rfl fun j hj => ?_
        rw [ND.reshape_split12 (hNs i) _ _ _ (mem_range.1 hj), ND.reshape_split12 (hNs i) _ _ _ (mem_range.1 hj), hNi]
      · refine ⟨fun t b => (env.qr (M i)).2.get [t, b], fun t ht b hb => hq.upper t (by rw [hf]; exact ht) b hb,
          fun a ha j hj b hb => ?_⟩
        show ∑ t ∈ _, ND.get (List.getD _ i _) _ * _ = _
        rw [hC i (by omega), ← hdraw i a j b ha hj hb, ← hq.mul _ (mul_add_lt ha hj) _ hb, hf]
        refine sum_congr rfl fun t _ => ?_
        rw [ND.reshape_split12 (hNs i) _ _ _ hj, hNi]

/-- **C64, rejected arguments.** `orthog=True` with `trim=False`, a rank sequence of the wrong length (also: no mode at
all) and an unknown `norm_goal` raise `ValueError`. -/
theorem C64_reject (env : Env K) (hQ : QRContract env) (shape : List ℕ) (rank : RankArg) (seed : ℕ) (orthog : Bool)
    (trim : Option Bool) (goal : NormGoal)
    (hp : orthog = true → (∀ n ∈ shape, 0 < n) ∧ ∀ r ∈ askedRanks shape rank, 0 < r)
    (h : (orthog = true ∧ trim = some false) ∨ (askedRanks shape rank).length + 1 ≠ shape.length ∨ goal = .other) :
    TT.random env shape rank seed orthog trim goal = .error .valueError := by
  by_cases h1 : orthog = true ∧ trim = some false
  · unfold TT.random
    simp only []
    rw [if_pos ⟨h1.1, by rw [h1.2]; rfl⟩]
  · have h1' : ¬ (orthog = true ∧ trim.getD orthog = false) := by
      rintro ⟨a, b⟩
      cases trim with
      | none => rw [Option.getD_none, a] at b; simp at b
      | some c => exact h1 ⟨a, by rw [← b]; rfl⟩
    by_cases h2 : (askedRanks shape rank).length + 1 = shape.length
    · have hg : goal = .other := by
        rcases h with h | h | h
        · exact absurd h h1
        · exact absurd h2 h
        · exact h
      -- all cores but the last are made as for another goal
      obtain ⟨X, hX, -⟩ := C64 env hQ shape rank seed orthog trim .norm1 h2 (fun a b => h1 ⟨a, b⟩) (by simp) hp
      subst hg
      unfold TT.random at hX ⊢
      simp only [] at hX ⊢
      rw [if_neg h1'] at hX ⊢
      cases hr : processTTRank rank shape (trim.getD orthog) with
      | error e => rw [hr] at hX; simp at hX
      | ok r =>
        rw [hr] at hX
        simp only [] at hX ⊢
        obtain ⟨d, hd⟩ : ∃ d, shape.length = d + 1 := ⟨shape.length - 1, by omega⟩
        have hlast : TT.randomCore env shape (1 :: r ++ [1]) seed orthog .other d = .error .valueError := by
          unfold TT.randomCore
          simp only []
          rw [if_neg (by omega)]
        have key : ∀ l : List ℕ, d ∈ l → (∃ Y, l.mapM (TT.randomCore env shape (1 :: r ++ [1]) seed orthog .norm1) = .ok Y) →
            l.mapM (TT.randomCore env shape (1 :: r ++ [1]) seed orthog .other) = .error .valueError := by
          intro l
          induction l with
          | nil => intro h; simp at h
          | cons i l ih =>
            rintro hm ⟨Y, hY⟩
            rw [List.mapM_cons] at hY ⊢
            have hi : TT.randomCore env shape (1 :: r ++ [1]) seed orthog .other i
                = TT.randomCore env shape (1 :: r ++ [1]) seed orthog .norm1 i ∨
                TT.randomCore env shape (1 :: r ++ [1]) seed orthog .other i = .error .valueError := by
              unfold TT.randomCore
              simp only []
              split
              · exact .inl rfl
              · exact .inr rfl
            rcases hi with hi | hi
            · rw [hi]
              cases hc : TT.randomCore env shape (1 :: r ++ [1]) seed orthog .norm1 i with
              | error e => rw [hc] at hY; cases hY
              | ok C =>
                rw [hc] at hY
                have hdl : d ∈ l := by
                  rcases List.mem_cons.1 hm with rfl | h
                  · rw [hlast] at hi; rw [← hi] at hc; cases hc
                  · exact h
                cases hl : l.mapM (TT.randomCore env shape (1 :: r ++ [1]) seed orthog .norm1) with
                | error e => rw [hl] at hY; cases hY
                | ok Z =>
                  rw [ih hdl ⟨Z, hl⟩]; rfl
            · rw [hi]; rfl
        rw [key _ (by simp [hd]) ?_]
        · rfl
        · cases hm : (List.range shape.length).mapM (TT.randomCore env shape (1 :: r ++ [1]) seed orthog .norm1) with
          | error e => rw [hm] at hX; cases hX
          | ok Z => exact ⟨Z, rfl⟩
    · unfold TT.random
      simp only []
      rw [if_neg h1', process_eq, ← asked_eq, if_pos h2]

/-- **C64, norm.** With `orthog=True` the Frobenius norm of the tensor is that of the last core. -/
theorem C64_norm (env : Env ℝ) (hQ : QRContract env) (shape : List ℕ) (rank : RankArg) (seed : ℕ)
    (trim : Option Bool) (goal : NormGoal) (hl : (askedRanks shape rank).length + 1 = shape.length)
    (ht : trim ≠ some false) (hg : goal ≠ .other)
    (p1 : ∀ n ∈ shape, 0 < n) (p2 : ∀ r ∈ askedRanks shape rank, 0 < r) (X : TT ℝ)
    (hX : TT.random env shape rank seed true trim goal = .ok X) :
    normSq X.toNumpy = normSq (X.cores.getLastD (ND.zeros [])) := by
  obtain ⟨X', h1, h2, h3, -, -, h6⟩ := C64 env hQ shape rank seed true trim goal hl (fun _ => ht) hg fun _ => ⟨p1, p2⟩
  rw [h1] at hX
  injection hX with hX
  subst hX
  refine (orth_norm h2 fun C hC => ?_).symm
  obtain ⟨i, hi, rfl⟩ := List.getElem_of_mem hC
  have hlen : X'.cores.length = shape.length := by rw [← h3]; simp [TT.shape]
  rw [List.length_dropLast] at hi
  have := (h6 rfl i (by omega)).1
  rwa [List.getD_eq_getElem _ _ (by omega), ← List.getElem_dropLast (by rw [List.length_dropLast]; exact hi)] at this

/-- The hypotheses of C64 can be met: shape `(2, 3, 2)`, ranks `(5, 1)`, orthogonalised, so trimmed to `(2, 1)`. -/
example (seed : ℕ) : ∃ X, TT.random env8 [2, 3, 2] (.seq [5, 1]) seed true none .norm1 = .ok X ∧ X.Valid ∧
    X.shape = [2, 3, 2] ∧ X.rank = [2, 1] ∧ (X.cores.getD 1 (ND.zeros [])).LeftOrthogonal := by
  obtain ⟨X, h1, h2, h3, h4, -, h6⟩ := C64 env8 (qrChoice_contract rfl) [2, 3, 2] (.seq [5, 1]) seed true none .norm1 rfl (by simp) (by simp)
    (fun _ => ⟨by simp, by simp [askedRanks]⟩)
  exact ⟨X, h1, h2, h3, h4.trans (by decide +kernel), (h6 rfl 1 (by simp)).1⟩

/-- Both kinds of rejected calls exist. -/
example : TT.random env8 [2, 3] (.int 2) 0 true (some false) .norm1 = .error .valueError ∧
    TT.random env8 [2, 3] (.int 2) 0 false none .other = .error .valueError :=
  ⟨C64_reject _ (qrChoice_contract rfl) _ _ _ _ _ _ (fun _ => ⟨by simp, by simp [askedRanks]⟩) (.inl ⟨rfl, rfl⟩),
    C64_reject _ (qrChoice_contract rfl) _ _ _ _ _ _ (fun h => by simp at h) (.inr (.inr rfl))⟩

end TTS.Props
