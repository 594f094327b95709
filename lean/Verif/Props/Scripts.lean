import Verif.Model.Scripts
import Verif.Props.ExperimentFns
import Verif.Props.Random
import Verif.Proofs.GmresVec
import Verif.Props.RoundSum
import Verif.Props.TestTensors

/-!
# C90: the test tensors and the error function of the plotting scripts
-/

namespace TTS.Props

open TTS Finset

/-! ### `tt_exp_decay` -/

theorem logspace_length (stop : ℝ) (n : ℕ) : (logspace stop n).length = n := by simp [logspace]

theorem logspace_getD {stop : ℝ} {n k : ℕ} (hk : k < n) :
    (logspace stop n).getD k 0 = (10 : ℝ) ^ (stop * k / (n - 1 : ℕ)) := by
  unfold logspace
  exact getD_map_range (fun k : ℕ => (10 : ℝ) ^ (stop * k / (n - 1 : ℕ))) _ _ _ hk

theorem logspace_nonneg (stop : ℝ) (n k : ℕ) : 0 ≤ (logspace stop n).getD k 0 := by
  by_cases hk : k < n
  · rw [logspace_getD hk]; positivity
  · rw [List.getD_eq_default _ _ (by rw [logspace_length]; omega)]

theorem logspace_antitone {stop : ℝ} (hs : stop ≤ 0) (n : ℕ) {s t : ℕ} (h : s ≤ t) :
    (logspace stop n).getD t 0 ≤ (logspace stop n).getD s 0 := by
  by_cases ht : t < n
  · rw [logspace_getD ht, logspace_getD (by omega)]
    refine Real.rpow_le_rpow_of_exponent_le (by norm_num) ?_
    have h1 : (s : ℝ) ≤ t := by exact_mod_cast h
    exact div_le_div_of_nonneg_right (by nlinarith) (Nat.cast_nonneg _)
  · rw [List.getD_eq_default _ _ (by rw [logspace_length]; omega)]
    exact logspace_nonneg _ _ _

/-- Replacing the singular values in a thin SVD. -/
theorem svd_replace {M U V : ND ℝ} {S S' : List ℝ} {m n : ℕ} (h : IsSVD M U S V m n (min m n) (min m n))
    (hl : S'.length = min m n) (h0 : ∀ t, 0 ≤ S'.getD t 0) (ha : ∀ s t, s ≤ t → S'.getD t 0 ≤ S'.getD s 0) :
    IsSVD ((U.matmul (ND.diag S')).matmul V) U S' V m n (min m n) (min m n) := by
  have hD : (ND.diag S').shape = [min m n, min m n] := by rw [← hl]; rfl
  have h1 : (U.matmul (ND.diag S')).shape = [m, min m n] := ND.matmul_shape' h.shapeU hD
  refine ⟨h.shapeU, h.shapeV, hl, fun i hi j hj => ?_, h.orthU, h.orthV, h0, ha⟩
  rw [ND.matmul_get h1 h.shapeV]
  refine sum_congr rfl fun t ht => ?_
  rw [ND.matmul_get h.shapeU hD, sum_eq_single t]
  · rw [ND.diag_get, if_pos rfl]
  · intro y _ hy; rw [ND.diag_get, if_neg hy, mul_zero]
  · intro h; exact absurd ht h

/-- A matrix with orthonormal columns has singular values one. -/
theorem svd_orth {M U V : ND ℝ} {S : List ℝ} {m n k : ℕ} (h : IsSVD M U S V m n k k) (hk : k = min m n)
    (ho : ∀ s < n, ∀ t < n, ∑ i ∈ range m, M.get [i, s] * M.get [i, t] = if s = t then 1 else 0) :
    ∀ t < k, S.getD t 0 = 1 := by
  intro t ht
  -- `M v_t = s_t u_t`
  have h1 : ∀ i < m, ∑ j ∈ range n, M.get [i, j] * V.get [t, j] = S.getD t 0 * U.get [i, t] := by
    intro i hi
    calc _ = ∑ j ∈ range n, ∑ s ∈ range k, U.get [i, s] * S.getD s 0 * (V.get [s, j] * V.get [t, j]) := by
          refine sum_congr rfl fun j hj => ?_
          rw [← h.mul i hi j (mem_range.1 hj), sum_mul, ← hk]
          exact sum_congr rfl fun s _ => by ring
      _ = ∑ s ∈ range k, U.get [i, s] * S.getD s 0 * if s = t then 1 else 0 := by
          rw [sum_comm]
          refine sum_congr rfl fun s hs => ?_
          rw [← mul_sum, h.orthV s (mem_range.1 hs) t ht]
      _ = _ := by
          rw [sum_eq_single t (fun s _ hs => by rw [if_neg hs, mul_zero]) (fun h => absurd (mem_range.2 ht) h), if_pos rfl]
          ring
  have h2 : ∑ i ∈ range m, (∑ j ∈ range n, M.get [i, j] * V.get [t, j]) ^ 2 = 1 := by
    calc _ = ∑ j ∈ range n, ∑ j' ∈ range n, V.get [t, j] * V.get [t, j'] * ∑ i ∈ range m, M.get [i, j] * M.get [i, j'] := by
          have e : ∀ i ∈ range m, (∑ j ∈ range n, M.get [i, j] * V.get [t, j]) ^ 2
              = ∑ j ∈ range n, ∑ j' ∈ range n, V.get [t, j] * V.get [t, j'] * (M.get [i, j] * M.get [i, j']) := by
            intro i _
            rw [pow_two, sum_mul_sum]
            exact sum_congr rfl fun j _ => sum_congr rfl fun j' _ => by ring
          rw [sum_congr rfl e, sum_comm]
          refine sum_congr rfl fun j _ => ?_
          rw [sum_comm]
          exact sum_congr rfl fun j' _ => (mul_sum _ _ _).symm
      _ = ∑ j ∈ range n, V.get [t, j] * V.get [t, j] := by
          refine sum_congr rfl fun j hj => ?_
          rw [sum_eq_single j]
          · rw [ho j (mem_range.1 hj) j (mem_range.1 hj), if_pos rfl, mul_one]
          · intro j' hj' hne
            rw [ho j (mem_range.1 hj) j' (mem_range.1 hj'), if_neg (Ne.symm hne), mul_zero]
          · intro h; exact absurd hj h
      _ = 1 := by rw [h.orthV t ht t ht, if_pos rfl]
  have h3 : ∑ i ∈ range m, (∑ j ∈ range n, M.get [i, j] * V.get [t, j]) ^ 2 = S.getD t 0 ^ 2 := by
    calc _ = ∑ i ∈ range m, S.getD t 0 ^ 2 * (U.get [i, t] * U.get [i, t]) := by
          refine sum_congr rfl fun i hi => ?_
          rw [h1 i (mem_range.1 hi)]; ring
      _ = _ := by rw [← mul_sum, h.orthU t ht t ht, if_pos rfl, mul_one]
  have h4 : S.getD t 0 ^ 2 = 1 := h3.symm.trans h2
  exact (pow_eq_one_iff_of_nonneg (h.nonneg t) (by norm_num)).1 h4

theorem matShape_prod (r n s : ℕ) : (matShape r n s).1 * (matShape r n s).2 = r * n * s := by
  unfold matShape; split <;> ring

theorem decayCore_shape (la : LinAlg) (keep : Bool) (stop : ℝ) (C : ND ℝ) : (decayCore la keep stop C).shape = C.shape :=
  rfl

/-- The core made by `tt_exp_decay` with its singular value decomposition. -/
theorem decayCore_svd {la : LinAlg} (hs : la.SVDThinOk) (keep : Bool) {stop : ℝ} (h0 : stop ≤ 0) {C : ND ℝ}
    {r n s a b : ℕ} (hC : C.shape = [r, n, s]) (hab : matShape r n s = (a, b)) :
    ∃ U σ V, IsSVD (C.reshape [a, b]) U σ V a b (min a b) (min a b) ∧
      IsSVD ((decayCore la keep stop C).reshape [a, b]) U ((List.range (min a b)).map fun k : ℕ =>
        (if keep then σ.getD k 0 else √ ((min a b : ℕ) : ℝ)) * (10 : ℝ) ^ (stop * k / (min a b - 1 : ℕ)))
        V a b (min a b) (min a b) := by
  obtain ⟨hd0, hd1, hd2⟩ : C.dim 0 = r ∧ C.dim 1 = n ∧ C.dim 2 = s := by simp [ND.dim, hC]
  have hp : a * b = r * n * s := by have := matShape_prod r n s; rwa [hab] at this
  have h := hs (C.reshape [a, b]) a b rfl
  refine ⟨_, _, _, h, ?_⟩
  set S' : List ℝ := if keep then
      List.zipWith (· * ·) (la.svdThin (C.reshape [a, b])).2.1 (logspace stop (la.svdThin (C.reshape [a, b])).2.1.length)
    else (logspace stop (la.svdThin (C.reshape [a, b])).2.1.length).map fun x => x * √ ((min a b : ℕ) : ℝ) with hS'
  have hl : S'.length = min a b := by
    rw [hS']; split
    · rw [List.length_zipWith, logspace_length, h.length, min_self]
    · rw [List.length_map, logspace_length, h.length]
  have e : S' = (List.range (min a b)).map fun k : ℕ => (if keep then (la.svdThin (C.reshape [a, b])).2.1.getD k 0
      else √ ((min a b : ℕ) : ℝ)) * (10 : ℝ) ^ (stop * k / (min a b - 1 : ℕ)) := by
    refine List.ext_getElem (by rw [hl]; simp) fun k h1 h2 => ?_
    have hk : k < min a b := by omega
    have hlog := logspace_getD (stop := stop) hk
    rw [List.getD_eq_getElem _ _ (by rw [logspace_length]; exact hk)] at hlog
    rw [List.getElem_map, List.getElem_range]
    cases keep with
    | true =>
      simp only [if_pos, hS', List.getElem_zipWith, h.length, hlog]
      rw [List.getD_eq_getElem _ _ (by rw [h.length]; exact hk)]
    | false =>
      simp only [hS', Bool.false_eq_true, if_false, List.getElem_map, h.length, hlog]
      exact mul_comm _ _
  have hD : (decayCore la keep stop C).reshape [a, b]
      = ((la.svdThin (C.reshape [a, b])).1.matmul (ND.diag S')).matmul (la.svdThin (C.reshape [a, b])).2.2 := by
    have hd : decayCore la keep stop C
        = (((la.svdThin (C.reshape [a, b])).1.matmul (ND.diag S')).matmul (la.svdThin (C.reshape [a, b])).2.2).reshape
          C.shape := by
      unfold decayCore
      simp only [hd0, hd1, hd2, hab]
      rfl
    have hDg : (ND.diag S').shape = [min a b, min a b] := by rw [← hl]; rfl
    have hsh : (((la.svdThin (C.reshape [a, b])).1.matmul (ND.diag S')).matmul (la.svdThin (C.reshape [a, b])).2.2).shape
        = [a, b] := ND.matmul_shape' (ND.matmul_shape' h.shapeU hDg) h.shapeV
    rw [hd, ND.reshape_reshape (by rw [hC, hsh]; simp [hp, mul_assoc]) (by rw [hsh])]
    conv_rhs => rw [← ND.reshape_self (((la.svdThin (C.reshape [a, b])).1.matmul (ND.diag S')).matmul
      (la.svdThin (C.reshape [a, b])).2.2), hsh]
  have hnn : ∀ k, 0 ≤ (if keep then (la.svdThin (C.reshape [a, b])).2.1.getD k 0 else √ ((min a b : ℕ) : ℝ)) := by
    intro k
    split
    · exact h.nonneg k
    · exact Real.sqrt_nonneg _
  rw [hD, ← e]
  refine svd_replace h hl (fun t => ?_) fun s t hst => ?_
  · rw [e]
    by_cases ht : t < min a b
    · rw [getD_map_range _ _ _ _ ht]
      exact mul_nonneg (hnn t) (by positivity)
    · rw [List.getD_eq_default _ _ (by rw [List.length_map, List.length_range]; omega)]
  · rw [e]
    by_cases ht : t < min a b
    · rw [getD_map_range _ _ _ _ ht, getD_map_range _ _ _ _ (by omega)]
      have hla := logspace_antitone h0 (min a b) hst
      rw [logspace_getD ht, logspace_getD (by omega)] at hla
      refine mul_le_mul ?_ hla (by positivity) (hnn s)
      split
      · exact h.antitone s t hst
      · exact le_rfl
    · rw [List.getD_eq_default _ _ (by rw [List.length_map, List.length_range]; omega)]
      by_cases hs' : s < min a b
      · rw [getD_map_range _ _ _ _ hs']
        exact mul_nonneg (hnn s) (by positivity)
      · rw [List.getD_eq_default _ _ (by rw [List.length_map, List.length_range]; omega)]

theorem chain_map {f : ND ℝ → ND ℝ} (hf : ∀ C, (f C).shape = C.shape) : ∀ {Cs : List (ND ℝ)} {r s : ℕ},
    TTChain r Cs s → TTChain r (Cs.map f) s
  | [], _, _, h => h
  | C :: _, _, _, ⟨n, t, hC, h⟩ => ⟨n, t, (hf C).trans hC, chain_map hf h⟩

theorem chain_shapes : ∀ {Cs : List (ND ℝ)} {r s : ℕ}, TTChain r Cs s → ∀ C ∈ Cs, ∃ a n b, C.shape = [a, n, b]
  | [], _, _, _, _, h => absurd h List.not_mem_nil
  | _ :: _, r, _, ⟨n, t, hC, h⟩, D, hD => by
    rcases List.mem_cons.1 hD with rfl | hD
    · exact ⟨r, n, t, hC⟩
    · exact chain_shapes h D hD

/-- The matricisation `tt_exp_decay` takes of a core of shape `(r, n, s)`: of `(r n) × s` and `r × (n s)` the one with the
longer list of singular values, the second one if both are of the same length. -/
def Matricised (r n s a b : ℕ) : Prop :=
  (min r (n * s) < min (r * n) s ∧ a = r * n ∧ b = s) ∨ (min (r * n) s ≤ min r (n * s) ∧ a = r ∧ b = n * s)

/-- **C90, test tensors.** For positive sizes and ranks and a last exponent `stop ≤ 0`, `tt_exp_decay` (of both kinds) returns a
well-formed tensor train with the shape asked for and the ranks of `TensorTrain.random(..., trim=True)`.  Every core, as a
matrix, keeps the singular vectors it had in the random tensor train, and its `k`-th of `N` singular values becomes
`sqrt(N) 10 ^ (stop k / (N - 1))`, in `plot_timings.py` instead the old value times `10 ^ (stop k / (N - 1))`, where the old
values are `1` in all cores but the last that are unfolded as `(r n) × s`. -/
theorem C90_decay {env : Env ℝ} (hQ : QRContract env) {la : LinAlg} (hs : la.SVDThinOk) (keep : Bool) {stop : ℝ}
    (h0 : stop ≤ 0) (shape : List ℕ) (rank : RankArg) (seed : ℕ)
    (hl : (askedRanks shape rank).length + 1 = shape.length) (p1 : ∀ n ∈ shape, 0 < n)
    (p2 : ∀ r ∈ askedRanks shape rank, 0 < r) :
    ∃ X T, TT.random env shape rank seed true (some true) .norm1 = .ok X ∧
      ttExpDecay env la keep shape rank stop seed = .ok T ∧ T.Valid ∧ T.shape = shape ∧
      T.rank = trimRanks shape (askedRanks shape rank) ∧
      ∀ i < shape.length, ∀ r n s a b, (X.cores.getD i (ND.zeros [])).shape = [r, n, s] → Matricised r n s a b →
        (T.cores.getD i (ND.zeros [])).shape = [r, n, s] ∧
        ∃ U σ V, IsSVD ((X.cores.getD i (ND.zeros [])).reshape [a, b]) U σ V a b (min a b) (min a b) ∧
          IsSVD ((T.cores.getD i (ND.zeros [])).reshape [a, b]) U ((List.range (min a b)).map fun k : ℕ =>
            (if keep then σ.getD k 0 else √ ((min a b : ℕ) : ℝ)) * (10 : ℝ) ^ (stop * k / (min a b - 1 : ℕ)))
            V a b (min a b) (min a b) ∧
          (i + 1 < shape.length → a = r * n → b = s → ∀ k < min a b, σ.getD k 0 = 1) := by
  obtain ⟨X, h1, h2, h3, h4, -, h6⟩ := C64 env hQ shape rank seed true (some true) .norm1 hl (by simp) (by simp)
    fun _ => ⟨p1, p2⟩
  have hf := decayCore_shape la keep stop
  have hdim : ∀ k, (fun C : ND ℝ => C.dim k) ∘ decayCore la keep stop = fun C => C.dim k := by
    intro k; funext C; simp [ND.dim, hf]
  refine ⟨X, ⟨X.cores.map (decayCore la keep stop)⟩, h1, ?_, ⟨?_, chain_map hf h2.2⟩, ?_, ?_, ?_⟩
  · unfold ttExpDecay; rw [h1]; rfl
  · simpa using h2.1
  · rw [← h3]
    simp only [TT.shape, List.map_map, hdim]
  · rw [show trimRanks shape (askedRanks shape rank) = X.rank from h4.symm]
    simp only [TT.rank, ← List.map_tail, List.map_map, hdim]
  · intro i hi r n s a b hC hab
    have hlen : i < X.cores.length := by
      have : X.cores.length = shape.length := by rw [← h3]; simp [TT.shape]
      omega
    have hm : matShape r n s = (a, b) := by
      unfold matShape
      rcases hab with ⟨h, rfl, rfl⟩ | ⟨h, rfl, rfl⟩
      · rw [if_pos h]
      · rw [if_neg (not_lt.2 h)]
    have e : (X.cores.map (decayCore la keep stop)).getD i (ND.zeros [])
        = decayCore la keep stop (X.cores.getD i (ND.zeros [])) := by
      rw [List.getD_eq_getElem _ _ (by simpa using hlen), List.getD_eq_getElem _ _ hlen, List.getElem_map]
    show ((X.cores.map (decayCore la keep stop)).getD i (ND.zeros [])).shape = _ ∧ ∃ U σ V, _ ∧
      IsSVD (((X.cores.map (decayCore la keep stop)).getD i (ND.zeros [])).reshape [a, b]) _ _ _ _ _ _ _ ∧ _
    rw [e]
    obtain ⟨U, σ, V, g1, g2⟩ := decayCore_svd hs keep h0 hC hm
    refine ⟨(hf _).trans hC, U, σ, V, g1, g2, fun hi' ha hb => ?_⟩
    have hO := (h6 rfl i hi').1
    generalize X.cores.getD i (ND.zeros []) = C at *
    obtain ⟨hd0, hd1, hd2⟩ : C.dim 0 = r ∧ C.dim 1 = n ∧ C.dim 2 = s := by simp [ND.dim, hC]
    subst ha hb
    refine svd_orth g1 rfl fun s' hs' t ht => ?_
    have := hO s' (by rw [hd2]; exact hs') t (by rw [hd2]; exact ht)
    rw [hd0, hd1] at this
    rw [← this, range_mul_sum]
    refine sum_congr rfl fun x _ => sum_congr rfl fun y hy => ?_
    rw [ND.reshape_merge12 hC x y _ (mem_range.1 hy), ND.reshape_merge12 hC x y _ (mem_range.1 hy)]

/-! ### `tt_error_func` -/

/-- **C90, error function.** For tensor trains of the same shape with at least two modes and no empty mode or rank,
`tt_error_func(Y, X)` is the Frobenius distance divided by the Frobenius norm of `X` (or the distance itself, without
`relative`); for `X = 0` it is `np.inf`, except in `plot_timings.py`, where it raises `AttributeError` (`np.infa`). -/
theorem C90_error {env : Env ℝ} {la : LinAlg} (hq : la.QROk) (typo relative : Bool) (Y : Obj ℝ) {Y' X : TT ℝ}
    (hY' : Y = .atom (.leaf (.tt Y')) ∨ ∃ S, Y = .atom (.sketched S) ∧ S.toTT env = .ok Y')
    (hY : Y'.Valid) (pY : Y'.Pos) (hX : X.Valid) (pX : X.Pos) (hsh : Y'.shape = X.shape) (hd : 2 ≤ X.shape.length) :
    (normSq X.toNumpy ≠ 0 → ttErrorFunc env la typo Y X relative
      = .ok (.val (√ (distSq Y'.toNumpy X.toNumpy) / if relative then √ (normSq X.toNumpy) else 1))) ∧
    (normSq X.toNumpy = 0 → ttErrorFunc env la false Y X relative = .ok .inf ∧
      ttErrorFunc env la true Y X relative = .error .attributeError) := by
  have hA : Y.asTT env = .ok Y' := by
    rcases hY' with rfl | ⟨S, rfl, h⟩
    · rfl
    · exact h
  have hN := C12_tt hq hX pX
  obtain ⟨⟨m1, m2, m3⟩, -⟩ := good_mul (s := X.shape) ⟨hX, pX, rfl⟩ (-1)
  obtain ⟨a1, a2, a3, a4⟩ := C08 Y' (X.mul (-1)) hY m1 (hsh.trans m3.symm) (by rw [hsh]; exact hd)
  have hP : (Y'.add (X.mul (-1))).Pos := by
    refine ⟨by rw [a2]; exact pY.1, ?_⟩
    rw [a3]
    intro r hr
    obtain ⟨i, hi, rfl⟩ := List.getElem_of_mem hr
    rw [List.getElem_zipWith]
    rw [List.length_zipWith] at hi
    have := pY.2 _ (List.getElem_mem (show i < Y'.rank.length by omega))
    omega
  have hE := C12_tt hq a1 hP
  have hdist : normSq (Y'.add (X.mul (-1))).toNumpy = distSq Y'.toNumpy X.toNumpy := by
    unfold normSq distSq
    rw [TT.toNumpy_shape a1, TT.toNumpy_shape hY, a2]
    refine sumIdx_congr fun i _ => ?_
    have hm : (X.mul (-1)).toNumpy.get i = X.toNumpy.get i * -1 := Leaf.mul_get (X := .tt X) hX (-1) i
    rw [a4, hm]
    ring
  have h0 : √ (normSq X.toNumpy) = 0 ↔ normSq X.toNumpy = 0 := Real.sqrt_eq_zero (normSq_nonneg _)
  refine ⟨fun h => ?_, fun h => ?_⟩
  · unfold ttErrorFunc
    rw [hA, hN]
    show (if √ (normSq X.toNumpy) = 0 then _ else _) = _
    rw [if_neg (fun h' => h (h0.1 h')), hE, hdist]
    show Except.ok (PyFloat.val (if relative then _ else _)) = _
    cases relative <;> simp
  · unfold ttErrorFunc
    rw [hA, hN]
    exact ⟨if_pos (h0.2 h), if_pos (h0.2 h)⟩

/-! ### Examples -/

/-- The first core of a `2 × 3 × 2` test tensor of rank `2` gets the singular values `√2` and `√2 / 10²⁰`. -/
example (seed : ℕ) : ∃ T, ttExpDecay env8 laChoice false [2, 3, 2] (.int 2) (-20) seed = .ok T ∧ T.Valid ∧
    T.shape = [2, 3, 2] ∧ T.rank = [2, 2] ∧ ∃ U V, IsSVD ((T.cores.getD 0 (ND.zeros [])).reshape [2, 2]) U
      [√ 2 * 10 ^ (0 : ℝ), √ 2 * 10 ^ (-20 : ℝ)] V 2 2 2 2 := by
  obtain ⟨X, T, h1, h2, h3, h4, h5, h6⟩ := C90_decay (env := env8) (qrChoice_contract rfl) laChoice_svdThin false
    (stop := -20) (by norm_num) [2, 3, 2] (.int 2) seed rfl (by simp) (by simp [askedRanks])
  obtain ⟨X', g1, g2, g3, g4, -, -⟩ := C64 env8 (qrChoice_contract rfl) [2, 3, 2] (.int 2) seed true (some true) .norm1 rfl
    (by simp) (by simp) (fun _ => ⟨by simp, by simp [askedRanks]⟩)
  rw [h1] at g1
  injection g1 with g1
  subst g1
  have g4' : X.rank = [2, 2] := g4.trans (by decide +kernel)
  have hs : (X.cores.getD 0 (ND.zeros [])).shape = [1, 2, 2] := by
    obtain ⟨cs⟩ := X
    rcases cs with _ | ⟨C, _ | ⟨D, l⟩⟩
    · simp [TT.shape] at g3
    · simp [TT.shape] at g3
    · obtain ⟨-, n, t, hC, n', t', hD, -⟩ := g2
      have e1 : n = 2 := by
        have := congrArg List.head? g3
        simpa [TT.shape, ND.dim, hC] using this
      have e2 : t = 2 := by
        have := congrArg List.head? g4'
        simpa [TT.rank, ND.dim, hD] using this
      rw [e1, e2] at hC
      exact hC
  obtain ⟨-, U, σ, V, -, q, -⟩ := h6 0 (by simp) 1 2 2 2 2 hs (.inl ⟨by decide, rfl, rfl⟩)
  refine ⟨T, h2, h3, h4, h5.trans (by decide +kernel), U, V, ?_⟩
  have e : ((List.range (min 2 2)).map fun k : ℕ =>
      (if false then σ.getD k 0 else √ ((min 2 2 : ℕ) : ℝ)) * (10 : ℝ) ^ ((-20 : ℝ) * k / (min 2 2 - 1 : ℕ)))
      = [√ 2 * 10 ^ (0 : ℝ), √ 2 * 10 ^ (-20 : ℝ)] := by
    simp [List.range_succ]
  rw [← e]
  simpa using q

theorem z9_nonzero : normSq z9.toNumpy ≠ 0 := by
  have hv : z9.Valid := (list9.2 z9 (by simp)).1
  have hr : InR z9.toNumpy.shape [0, 0, 0] := by rw [TT.toNumpy_shape hv]; decide
  have e : z9.toNumpy.get [0, 0, 0] = 6 := by
    rw [TT.toNumpy_get hv]
    simp [ttEntry, ttVal, z9, ND.dim, sum_range_succ, ND.ofFn_get']
    norm_num
  intro h
  have := sumIdx_eq_zero_iff_nonneg (fun i => sq_nonneg (z9.toNumpy.get i)) h _ hr
  rw [e] at this
  norm_num at this

/-- The error function on two different tensor trains, and on the zero tensor train. -/
example : ttErrorFunc env8 laChoice true (.atom (.leaf (.tt x9))) z9 true
      = .ok (.val (√ (distSq x9.toNumpy z9.toNumpy) / √ (normSq z9.toNumpy))) ∧
    ttErrorFunc env8 laChoice true (.atom (.leaf (.tt x9))) (z9.mul 0) true = .error .attributeError := by
  have hz := list9.2 z9 (by simp)
  obtain ⟨⟨m1, m2, m3⟩, -⟩ := good_mul (s := [2, 3, 2]) hz 0
  refine ⟨(C90_error (env := env8) laChoice_qr true true (.atom (.leaf (.tt x9))) (.inl rfl) x9_valid x9_pos
    hz.1 hz.2.1 hz.2.2.symm (by decide)).1 z9_nonzero, ((C90_error (env := env8) laChoice_qr true true
    (.atom (.leaf (.tt x9))) (.inl rfl) x9_valid x9_pos m1 m2 m3.symm (by rw [m3]; decide)).2 ?_).2⟩
  unfold normSq
  refine (sumIdx_congr fun i _ => ?_).trans (sumIdx_zero _)
  have hm : (z9.mul 0).toNumpy.get i = z9.toNumpy.get i * 0 := Leaf.mul_get (X := .tt z9) hz.1 0 i
  rw [hm]
  norm_num

end TTS.Props
