import Verif.Spec.GaussErr
import Verif.Proofs.OpChain

/-!
# Oblique projections with Gaussian matrices
-/

namespace TTS

open Finset MeasureTheory ProbabilityTheory Matrix
open scoped ENNReal

/-- orthonormal rows keep norms -/
theorem fsq_mul_frame {m : Type*} [Fintype m] {r N : ℕ} (X : Matrix m (Fin r) ℝ) (M : Matrix (Fin r) (Fin N) ℝ)
    (h1 : M * Mᵀ = 1) : fsq (X * M) = fsq X := by
  rw [fsq_trace, fsq_trace, Matrix.transpose_mul, Matrix.mul_assoc, ← Matrix.mul_assoc M, h1, Matrix.one_mul]

theorem growth_nonneg (w l : ℕ) : 0 ≤ growth w l := zero_le_one.trans (le_max_left _ _)

/-- A Gaussian oblique projection does not increase squared norms much, in the mean. -/
theorem oblique_mean {n : Type*} [Fintype n] {m w l : ℕ} (Z : Matrix n (Fin m) ℝ) (S : Matrix (Fin w) (Fin m) ℝ)
    (hS : S.rank = w) (h : w + 2 ≤ l) :
    ∫⁻ G, ENNReal.ofReal (fsq (Z * gm G * (rinv (S * gm G) * S))) ∂(stdG (Fin m × Fin l))
      ≤ ENNReal.ofReal (growth w l) * ENNReal.ofReal (fsq Z) := by
  classical
  obtain ⟨l', q, M, M', hr, h1, h2, h3, h4, h5⟩ := exists_frame S
  obtain rfl : l' = w := hr.trans hS
  have hSM : S * Mᵀ * M = S := frame_self h4 h5
  have hK : IsUnit (S * Mᵀ).det := by
    refine det_of_rank (le_antisymm (Matrix.rank_le_height _) ?_)
    have := Matrix.rank_mul_le_left (S * Mᵀ) M
    rwa [hSM, hS] at this
  set Φ : (Fin l' × Fin l → ℝ) → (Fin q × Fin l → ℝ) → ℝ≥0∞ := fun y z =>
    ENNReal.ofReal (fsq (Z * (Mᵀ * gm y + M'ᵀ * gm z) * rinv (gm y))) with hΦ
  have m1 : MMeas fun p : (Fin l' × Fin l → ℝ) × (Fin q × Fin l → ℝ) => gm p.1 := MMeas.gm.comp measurable_fst
  have m2 : MMeas fun p : (Fin l' × Fin l → ℝ) × (Fin q × Fin l → ℝ) => gm p.2 := MMeas.gm.comp measurable_snd
  have m3 : MMeas fun p : (Fin l' × Fin l → ℝ) × (Fin q × Fin l → ℝ) => rinv (gm p.1) := rinv_meas.comp measurable_fst
  have hΦm : Measurable fun p : (Fin l' × Fin l → ℝ) × (Fin q × Fin l → ℝ) => Φ p.1 p.2 := by
    refine (fsq_measurable (((MMeas.const Z).mul fun i j => ?_).mul m3)).ennreal_ofReal
    exact (((MMeas.const Mᵀ).mul m1) i j).add (((MMeas.const M'ᵀ).mul m2) i j)
  have e1 : ∀ G : Fin m × Fin l → ℝ, ENNReal.ofReal (fsq (Z * gm G * (rinv (S * gm G) * S)))
      = Φ (ent (M * gm G)) (ent (M' * gm G)) := by
    intro G
    have e : rinv (S * gm G) * S = rinv (M * gm G) * M := by
      conv_lhs => rw [← hSM]
      rw [Matrix.mul_assoc (S * Mᵀ) M (gm G), ← Matrix.mul_assoc, rinv_mul_left _ hK]
    simp only [hΦ, gm_ent]
    rw [e, ← Matrix.mul_assoc Mᵀ, ← Matrix.mul_assoc M'ᵀ, ← Matrix.add_mul, h4, Matrix.one_mul, ← Matrix.mul_assoc,
      fsq_mul_frame _ M h1]
  rw [lintegral_congr e1, stdG_frame M M' h1 h2 h3 Φ hΦm]
  have e2 : ∀ᵐ y ∂(stdG (Fin l' × Fin l)), ∫⁻ z, Φ y z ∂(stdG (Fin q × Fin l))
      = ENNReal.ofReal (fsq (Z * Mᵀ)) + ENNReal.ofReal (fsq (Z * M'ᵀ)) * ENNReal.ofReal (fsq (rinv (gm y))) := by
    filter_upwards [stdG_det_ne (k := l') (l := l) (by omega)] with y hy
    have e3 : ∀ z, Φ y z = ENNReal.ofReal (fsq (Z * Mᵀ + Z * M'ᵀ * gm z * rinv (gm y))) := by
      intro z
      simp only [hΦ]
      rw [Matrix.mul_add, Matrix.add_mul, ← Matrix.mul_assoc, Matrix.mul_assoc (Z * Mᵀ), mul_rinv hy, Matrix.mul_one,
        ← Matrix.mul_assoc]
    rw [lintegral_congr e3, stdG_sandwich', ENNReal.ofReal_add (fsq_nonneg _) (mul_nonneg (fsq_nonneg _) (fsq_nonneg _)),
      ENNReal.ofReal_mul (fsq_nonneg _)]
  have hmm : Measurable fun a : Fin l' × Fin l → ℝ => ENNReal.ofReal (fsq (rinv (gm a))) :=
    (fsq_measurable rinv_meas).ennreal_ofReal
  rw [lintegral_congr_ae e2, lintegral_add_left measurable_const, lintegral_const, measure_univ, mul_one,
    lintegral_const_mul _ hmm]
  have hp := ratio_nonneg h
  refine (add_le_add le_rfl (mul_le_mul' le_rfl (stdG_rinv h))).trans ?_
  rw [← ENNReal.ofReal_mul (fsq_nonneg _), ← ENNReal.ofReal_add (fsq_nonneg _) (mul_nonneg (fsq_nonneg _) hp),
    ← ENNReal.ofReal_mul (growth_nonneg _ _)]
  refine ENNReal.ofReal_le_ofReal ?_
  rw [fsq_split Z M M' h4, mul_add]
  refine add_le_add ?_ ?_
  · have := mul_le_mul_of_nonneg_right (le_max_left 1 ((l' : ℝ) / ((l : ℝ) - l' - 1))) (fsq_nonneg (Z * Mᵀ))
    rwa [one_mul] at this
  · rw [mul_comm]
    exact mul_le_mul_of_nonneg_right (le_max_right _ _) (fsq_nonneg _)

theorem growth_mono {w r l : ℕ} (hw : w ≤ r) (h : r + 2 ≤ l) : growth w l ≤ growth r l :=
  max_le_max le_rfl (ratio_mono hw h)

/-- A measurable choice of a basis of the range of `A R`, `R` a Gaussian matrix, and the error of this range. -/
theorem column_frame {m N k r : ℕ} (A B : Matrix (Fin m) (Fin N) ℝ) (hB : B.rank ≤ k)
    (h : k + 2 ≤ r ∨ (B = A ∧ k ≤ r)) :
    ∃ (w : ℕ) (C : (Fin N × Fin r → ℝ) → Matrix (Fin m) (Fin w) ℝ) (H : (Fin N × Fin r → ℝ) → Matrix (Fin w) (Fin N) ℝ),
      w ≤ r ∧ MMeas C ∧ MMeas H ∧
      (∀ᵐ y ∂(stdG (Fin N × Fin r)), (C y).rank = w ∧ (∃ J : Matrix (Fin r) (Fin w) ℝ, C y = A * gm y * J) ∧
        ∃ K : Matrix (Fin w) (Fin r) ℝ, A * gm y = C y * K) ∧
      ∫⁻ y, ENNReal.ofReal (fsq (A - C y * H y)) ∂(stdG (Fin N × Fin r))
        ≤ ENNReal.ofReal ((1 + (k : ℝ) / ((r : ℝ) - k - 1)) * fsq (A - B)) := by
  by_cases hA : A.rank ≤ r
  · obtain ⟨w, q, M, M', hr, h1, h2, h3, h4, h5⟩ := exists_frame Aᵀ
    rw [Matrix.rank_transpose] at hr
    have hMA' : Mᵀ * (M * A) = A := by
      have := congrArg Matrix.transpose (frame_self h4 h5)
      simpa only [Matrix.transpose_mul, Matrix.transpose_transpose, Matrix.mul_assoc] using this
    have hMA : (M * A).rank = w := by
      refine le_antisymm (Matrix.rank_le_height _) ?_
      have := Matrix.rank_mul_le_right Mᵀ (M * A)
      rwa [hMA', ← hr] at this
    refine ⟨w, fun _ => Mᵀ, fun _ => M * A, by omega, MMeas.const _, MMeas.const _, ?_, ?_⟩
    · filter_upwards [range_exact A hA] with y hy
      obtain ⟨F, hF⟩ := hy
      rw [sub_eq_zero] at hF
      refine ⟨by rw [Matrix.rank_transpose]; exact rank_of_rightInv h1, ⟨F * rinv (M * A), ?_⟩, M * (A * gm y), ?_⟩
      · rw [← Matrix.mul_assoc, ← hF]
        conv_rhs => rw [← hMA', Matrix.mul_assoc Mᵀ, hMA', mul_rinv (gram_of_rank hMA), Matrix.mul_one]
      · rw [← Matrix.mul_assoc M, ← Matrix.mul_assoc, hMA']
    · simp only [hMA', sub_self]
      simp [fsq]
  · have hk : k + 2 ≤ r := by
      rcases h with h | ⟨rfl, h⟩
      · exact h
      · omega
    obtain ⟨F, hF, hint⟩ := range_finder A B hB hk
    refine ⟨r, fun y => A * gm y, F, le_rfl, (MMeas.const _).mul MMeas.gm, hF, ?_, hint⟩
    have hr := stdG_left_rank (l := r) Aᵀ (by rw [Matrix.rank_transpose]; omega)
    filter_upwards [hr] with y hy
    refine ⟨?_, ⟨1, by rw [Matrix.mul_one]⟩, 1, by rw [Matrix.mul_one]⟩
    rw [← Matrix.rank_transpose, Matrix.transpose_mul]
    exact hy

/-- the projection in terms of a basis of the range -/
theorem pinv_factor {m w r l : ℕ} {W : Matrix (Fin m) (Fin r) ℝ} {C : Matrix (Fin m) (Fin w) ℝ} {L : Matrix (Fin l) (Fin m) ℝ}
    {J : Matrix (Fin r) (Fin w) ℝ} {K : Matrix (Fin w) (Fin r) ℝ} (hJ : C = W * J) (hK : W = C * K) (hC : C.rank = w)
    (hF : (Cᵀ * Lᵀ * (Cᵀ * Lᵀ)ᵀ).det ≠ 0) {G : Matrix (Fin r) (Fin l) ℝ} (hG : IsPinv (L * W) G) :
    W * G = C * (rinv (Cᵀ * Lᵀ))ᵀ := by
  set F : Matrix (Fin l) (Fin w) ℝ := L * C with hFd
  have hFt : Cᵀ * Lᵀ = Fᵀ := by rw [hFd, Matrix.transpose_mul]
  rw [hFt, Matrix.transpose_transpose] at hF
  rw [hFt]
  -- `C` and `F` can be cancelled
  obtain ⟨Ci, hCi⟩ := exists_pinv C
  have hC1 : Ci * C = 1 := leftInv_of_rank hCi.aga hC
  have hKJ : K * J = 1 := by
    have e : C * (K * J) = C := by rw [← Matrix.mul_assoc, ← hK, ← hJ]
    calc K * J = Ci * C * (K * J) := by rw [hC1, Matrix.one_mul]
      _ = 1 := by rw [Matrix.mul_assoc, e, hC1]
  have hF1 : (rinv Fᵀ)ᵀ * F = 1 := by
    have := congrArg Matrix.transpose (mul_rinv (W := Fᵀ) (by rwa [Matrix.transpose_transpose]))
    rwa [Matrix.transpose_mul, Matrix.transpose_transpose, Matrix.transpose_one] at this
  have hLW : L * W = F * K := by rw [hFd, Matrix.mul_assoc, ← hK]
  rw [hLW] at hG
  have e1 : K * G * F = 1 := by
    calc K * G * F = (rinv Fᵀ)ᵀ * F * (K * G * F) * (K * J) := by rw [hF1, hKJ, Matrix.one_mul, Matrix.mul_one]
      _ = (rinv Fᵀ)ᵀ * (F * K * G * (F * K)) * J := by simp only [Matrix.mul_assoc]
      _ = (rinv Fᵀ)ᵀ * F * (K * J) := by rw [hG.aga]; simp only [Matrix.mul_assoc]
      _ = 1 := by rw [hF1, hKJ, Matrix.one_mul]
  have e2 : K * G = K * G * Gᵀ * Kᵀ * Fᵀ := by
    conv_lhs => rw [← hG.gag, Matrix.mul_assoc G, ← hG.ag]
    simp only [Matrix.transpose_mul, Matrix.mul_assoc]
  set X := K * G * Gᵀ * Kᵀ with hX
  have e3 : X * (Fᵀ * F) = 1 := by rw [← Matrix.mul_assoc, ← e2, e1]
  have e4 : X = (Fᵀ * F)⁻¹ := (Matrix.inv_eq_left_inv e3).symm
  have e5 : (rinv Fᵀ)ᵀ = (Fᵀ * F)⁻¹ * Fᵀ := by
    unfold rinv
    rw [Matrix.transpose_mul, Matrix.transpose_transpose, Matrix.transpose_nonsing_inv, Matrix.transpose_mul,
      Matrix.transpose_transpose]
  rw [e5, ← e4, ← e2, ← Matrix.mul_assoc, ← hK]

end TTS
