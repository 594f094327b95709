import Mathlib.Probability.Distributions.Gaussian.Multivariate
import Mathlib.Analysis.SpecialFunctions.Gaussian.GaussianIntegral
import Mathlib.Analysis.SpecialFunctions.ImproperIntegrals

/-!
# Standard normal vectors: rotations, second moments, the mean of `1 / ‖x‖²`
-/

namespace TTS

open MeasureTheory ProbabilityTheory Matrix WithLp
open scoped ENNReal

/-- independent standard normal numbers -/
noncomputable def stdG (ι : Type*) [Fintype ι] : Measure (ι → ℝ) := Measure.pi fun _ => gaussianReal 0 1

instance (ι : Type*) [Fintype ι] : IsProbabilityMeasure (stdG ι) := by unfold stdG; infer_instance

variable {ι κ : Type*} [Fintype ι] [Fintype κ]

/-- matrices with orthonormal rows keep the law -/
theorem stdG_map_matrix [DecidableEq κ] (M : Matrix κ ι ℝ) (h : M * Mᵀ = 1) :
    (stdG ι).map (fun x => M *ᵥ x) = stdG κ := by
  have hm : Measurable fun x : ι → ℝ => M *ᵥ x := by
    refine measurable_pi_lambda _ fun k => ?_
    simp only [Matrix.mulVec, dotProduct]
    fun_prop
  have hinj : Function.Injective fun μ : Measure (κ → ℝ) => μ.map (toLp 2 : (κ → ℝ) → EuclideanSpace ℝ κ) := by
    intro μ ν e
    have := congrArg (fun m : Measure (EuclideanSpace ℝ κ) => m.map (ofLp : EuclideanSpace ℝ κ → κ → ℝ)) e
    simp only at this
    rw [Measure.map_map (by fun_prop) (by fun_prop), Measure.map_map (by fun_prop) (by fun_prop)] at this
    have hid : (ofLp : EuclideanSpace ℝ κ → κ → ℝ) ∘ (toLp 2 : (κ → ℝ) → EuclideanSpace ℝ κ) = id := rfl
    rwa [hid, Measure.map_id, Measure.map_id] at this
  apply hinj
  show ((stdG ι).map _).map _ = (stdG κ).map _
  rw [show (stdG κ).map (toLp 2 : (κ → ℝ) → EuclideanSpace ℝ κ) = stdGaussian (EuclideanSpace ℝ κ) from
    map_pi_eq_stdGaussian]
  have : IsFiniteMeasure (((stdG ι).map fun x => M *ᵥ x).map (toLp 2 : (κ → ℝ) → EuclideanSpace ℝ κ)) := inferInstance
  apply Measure.ext_of_charFun (E := EuclideanSpace ℝ κ)
  ext t
  rw [charFun_stdGaussian]
  have e1 : charFun (((stdG ι).map fun x => M *ᵥ x).map (toLp 2 : (κ → ℝ) → EuclideanSpace ℝ κ)) t
      = charFun ((stdG ι).map (toLp 2 : (ι → ℝ) → EuclideanSpace ℝ ι)) (toLp 2 (Mᵀ *ᵥ ofLp t)) := by
    rw [charFun_apply, charFun_apply, Measure.map_map (by fun_prop) hm,
      integral_map (by fun_prop) (by fun_prop), integral_map (by fun_prop) (by fun_prop)]
    refine integral_congr_ae (Filter.Eventually.of_forall fun x => ?_)
    simp only [Function.comp]
    congr 3
    simp only [PiLp.inner_apply, RCLike.inner_apply, conj_trivial]
    show (ofLp t) ⬝ᵥ (M *ᵥ x) = (Mᵀ *ᵥ ofLp t) ⬝ᵥ x
    rw [Matrix.dotProduct_mulVec, Matrix.mulVec_transpose]
  rw [e1, show (stdG ι).map (toLp 2 : (ι → ℝ) → EuclideanSpace ℝ ι) = stdGaussian (EuclideanSpace ℝ ι) from
    map_pi_eq_stdGaussian, charFun_stdGaussian]
  congr 3
  rw [← Complex.ofReal_pow, ← Complex.ofReal_pow]
  congr 1
  rw [EuclideanSpace.real_norm_sq_eq, EuclideanSpace.real_norm_sq_eq]
  have : (Mᵀ *ᵥ ofLp t) ⬝ᵥ (Mᵀ *ᵥ ofLp t) = ofLp t ⬝ᵥ ofLp t := by
    rw [Matrix.dotProduct_mulVec, Matrix.vecMul_transpose, Matrix.mulVec_mulVec, h, Matrix.one_mulVec]
  simpa only [dotProduct, ← sq] using this

/-- two blocks of independent numbers are independent -/
theorem stdG_sum (f : (ι → ℝ) → (κ → ℝ) → ℝ≥0∞) (hf : Measurable fun p : (ι → ℝ) × (κ → ℝ) => f p.1 p.2) :
    ∫⁻ x, f (fun i => x (.inl i)) (fun k => x (.inr k)) ∂(stdG (ι ⊕ κ)) = ∫⁻ y, ∫⁻ z, f y z ∂(stdG κ) ∂(stdG ι) := by
  have hmp := measurePreserving_sumPiEquivProdPi fun _ : ι ⊕ κ => gaussianReal 0 1
  have := hmp.lintegral_comp_emb (MeasurableEquiv.measurableEmbedding _) (fun p : (ι → ℝ) × (κ → ℝ) => f p.1 p.2)
  rw [lintegral_prod _ hf.aemeasurable] at this
  exact this

/-- selecting coordinates -/
theorem stdG_comp (e : κ → ι) (he : Function.Injective e) : (stdG ι).map (fun x k => x (e k)) = stdG κ := by
  classical
  have h : (Matrix.of fun (k : κ) (i : ι) => if e k = i then (1 : ℝ) else 0)
      * (Matrix.of fun (k : κ) (i : ι) => if e k = i then (1 : ℝ) else 0)ᵀ = 1 := by
    ext k l
    simp [Matrix.mul_apply, Matrix.one_apply, he.eq_iff, eq_comm]
  rw [← stdG_map_matrix _ h]
  congr 1
  funext x k
  simp [Matrix.mulVec, dotProduct]

theorem stdG_unit (f : ℝ → ℝ≥0∞) (hf : Measurable f) : ∫⁻ x, f (x ()) ∂(stdG Unit) = ∫⁻ y, f y ∂(gaussianReal 0 1) := by
  have h := measurePreserving_eval (fun _ : Unit => gaussianReal 0 1) ()
  exact h.lintegral_comp hf

/-- second moment of a linear combination -/
theorem stdG_linear_sq (a : ι → ℝ) :
    ∫⁻ x, ENNReal.ofReal ((∑ i, a i * x i) ^ 2) ∂(stdG ι) = ENNReal.ofReal (∑ i, a i ^ 2) := by
  classical
  have hn : 0 ≤ ∑ i, a i ^ 2 := Finset.sum_nonneg fun _ _ => sq_nonneg _
  rcases hn.eq_or_lt with h0 | h0
  · have ha : ∀ i, a i = 0 := fun i => by
      have := (Finset.sum_eq_zero_iff_of_nonneg fun i _ => sq_nonneg (a i)).1 h0.symm i (Finset.mem_univ _)
      simpa using this
    simp [ha]
  · set c := √ (∑ i, a i ^ 2) with hc
    have hc2 : c ^ 2 = ∑ i, a i ^ 2 := Real.sq_sqrt hn
    have hcp : 0 < c := Real.sqrt_pos.2 h0
    set M : Matrix Unit ι ℝ := Matrix.of fun _ i => a i / c with hM
    have h : M * Mᵀ = 1 := by
      ext k l
      simp only [hM, Matrix.mul_apply, Matrix.transpose_apply, Matrix.of_apply, Matrix.one_apply_eq]
      rw [Finset.sum_congr rfl fun i _ => show a i / c * (a i / c) = a i ^ 2 / c ^ 2 by ring, ← Finset.sum_div, hc2,
        div_self h0.ne']
    have e : ∀ x : ι → ℝ, ENNReal.ofReal ((∑ i, a i * x i) ^ 2)
        = (fun y : Unit → ℝ => ENNReal.ofReal (c ^ 2 * y () ^ 2)) (M *ᵥ x) := by
      intro x
      simp only [hM, Matrix.mulVec, dotProduct, Matrix.of_apply]
      congr 1
      rw [Finset.sum_congr rfl fun i _ => show a i / c * x i = a i * x i / c by ring, ← Finset.sum_div, div_pow,
        mul_div_cancel₀ _ (by positivity)]
    have hmm : Measurable fun x : ι → ℝ => M *ᵥ x := by
      refine measurable_pi_lambda _ fun k => ?_
      simp only [Matrix.mulVec, dotProduct]
      fun_prop
    rw [lintegral_congr e, ← lintegral_map (f := fun y : Unit → ℝ => ENNReal.ofReal (c ^ 2 * y () ^ 2)) (by fun_prop) hmm,
      stdG_map_matrix M h,
      stdG_unit (fun y => ENNReal.ofReal (c ^ 2 * y ^ 2)) (by fun_prop), ← hc2]
    have hi : Integrable (fun y : ℝ => y ^ 2) (gaussianReal 0 1) := (memLp_id_gaussianReal 2).integrable_sq
    have hv := variance_fun_id_gaussianReal (μ := 0) (v := 1)
    rw [variance_eq_integral (by fun_prop), integral_id_gaussianReal] at hv
    simp only [sub_zero] at hv
    rw [← ofReal_integral_eq_lintegral_ofReal (hi.const_mul _)
      (Filter.Eventually.of_forall fun y => by positivity), integral_const_mul, hv]
    simp

/-- second moment of an affine combination -/
theorem stdG_affine_sq (c : ℝ) (a : ι → ℝ) :
    ∫⁻ x, ENNReal.ofReal ((c + ∑ i, a i * x i) ^ 2) ∂(stdG ι) = ENNReal.ofReal (c ^ 2 + ∑ i, a i ^ 2) := by
  classical
  have hneg : ∫⁻ x, ENNReal.ofReal ((c - ∑ i, a i * x i) ^ 2) ∂(stdG ι)
      = ∫⁻ x, ENNReal.ofReal ((c + ∑ i, a i * x i) ^ 2) ∂(stdG ι) := by
    have hm : Measurable fun x : ι → ℝ => (-1 : Matrix ι ι ℝ) *ᵥ x := by
      simp only [Matrix.neg_mulVec, Matrix.one_mulVec]
      fun_prop
    conv_rhs => rw [← stdG_map_matrix (-1 : Matrix ι ι ℝ) (by simp), lintegral_map (by fun_prop) hm]
    refine lintegral_congr fun x => ?_
    simp [Matrix.neg_mulVec, Finset.sum_neg_distrib, sub_eq_add_neg]
  have hsum : ∫⁻ x, ENNReal.ofReal ((c + ∑ i, a i * x i) ^ 2) ∂(stdG ι)
      + ∫⁻ x, ENNReal.ofReal ((c - ∑ i, a i * x i) ^ 2) ∂(stdG ι) = 2 * ENNReal.ofReal (c ^ 2 + ∑ i, a i ^ 2) := by
    rw [← lintegral_add_left (by fun_prop)]
    have e : ∀ x : ι → ℝ, ENNReal.ofReal ((c + ∑ i, a i * x i) ^ 2) + ENNReal.ofReal ((c - ∑ i, a i * x i) ^ 2)
        = 2 * (ENNReal.ofReal (c ^ 2) + ENNReal.ofReal ((∑ i, a i * x i) ^ 2)) := by
      intro x
      rw [← ENNReal.ofReal_add (sq_nonneg _) (sq_nonneg _), ← ENNReal.ofReal_add (sq_nonneg _) (sq_nonneg _),
        show (2 : ℝ≥0∞) = ENNReal.ofReal 2 by simp, ← ENNReal.ofReal_mul (by norm_num)]
      congr 1
      ring
    rw [lintegral_congr e, lintegral_const_mul _ (by fun_prop), lintegral_add_left measurable_const, lintegral_const,
      measure_univ, mul_one, stdG_linear_sq, ← ENNReal.ofReal_add (sq_nonneg _) (Finset.sum_nonneg fun _ _ => sq_nonneg _)]
  rw [hneg, ← two_mul] at hsum
  exact (ENNReal.mul_right_inj (by norm_num) (by norm_num)).1 hsum

theorem gauss_exp_sq (t : ℝ) (ht : 0 ≤ t) :
    ∫⁻ y, ENNReal.ofReal (Real.exp (-(t * y ^ 2))) ∂(gaussianReal 0 1) = ENNReal.ofReal ((1 + 2 * t) ^ (-(1 : ℝ) / 2)) := by
  have hi : Integrable (fun y : ℝ => Real.exp (-(t * y ^ 2))) (gaussianReal 0 1) := by
    refine Integrable.of_bound (by fun_prop) 1 (Filter.Eventually.of_forall fun y => ?_)
    rw [Real.norm_eq_abs, abs_of_pos (Real.exp_pos _), Real.exp_le_one_iff]
    have : 0 ≤ t * y ^ 2 := by positivity
    linarith
  rw [← ofReal_integral_eq_lintegral_ofReal hi (Filter.Eventually.of_forall fun y => (Real.exp_pos _).le)]
  congr 1
  rw [integral_gaussianReal_eq_integral_smul one_ne_zero]
  have e : ∀ y : ℝ, gaussianPDFReal 0 1 y • Real.exp (-(t * y ^ 2))
      = (√ (2 * Real.pi))⁻¹ * Real.exp (-(t + 1 / 2) * y ^ 2) := by
    intro y
    simp only [gaussianPDFReal, NNReal.coe_one, mul_one, sub_zero, smul_eq_mul]
    rw [mul_assoc, ← Real.exp_add]
    congr 2
    ring
  rw [integral_congr_ae (Filter.Eventually.of_forall e), integral_const_mul, integral_gaussian, neg_div,
    Real.rpow_neg (by positivity), ← Real.sqrt_eq_rpow, ← Real.sqrt_inv, ← Real.sqrt_inv, ← Real.sqrt_mul (by positivity)]
  congr 1
  have := Real.pi_pos
  field_simp
  ring

/-- the mean of `exp(-t ‖x‖²)` -/
theorem stdG_exp_sq (t : ℝ) (ht : 0 ≤ t) :
    ∫⁻ x, ENNReal.ofReal (Real.exp (-(t * ∑ i, x i ^ 2))) ∂(stdG ι)
      = ENNReal.ofReal ((1 + 2 * t) ^ (-(Fintype.card ι : ℝ) / 2)) := by
  have e : ∀ x : ι → ℝ, ENNReal.ofReal (Real.exp (-(t * ∑ i, x i ^ 2)))
      = ∏ i, ENNReal.ofReal (Real.exp (-(t * x i ^ 2))) := by
    intro x
    rw [← ENNReal.ofReal_prod_of_nonneg fun i _ => (Real.exp_pos _).le, ← Real.exp_sum, Finset.mul_sum,
      Finset.sum_neg_distrib]
  have hind : iIndepFun (fun (i : ι) (x : ι → ℝ) => ENNReal.ofReal (Real.exp (-(t * x i ^ 2)))) (stdG ι) :=
    iIndepFun_pi (μ := fun _ : ι => gaussianReal 0 1) (X := fun _ y => ENNReal.ofReal (Real.exp (-(t * y ^ 2))))
      fun i => by fun_prop
  rw [lintegral_congr e, lintegral_prod_eq_prod_lintegral_of_indepFun _ _ hind fun i => by fun_prop]
  have e2 : ∀ i : ι, ∫⁻ x, ENNReal.ofReal (Real.exp (-(t * x i ^ 2))) ∂(stdG ι)
      = ENNReal.ofReal ((1 + 2 * t) ^ (-(1 : ℝ) / 2)) := by
    intro i
    have h := measurePreserving_eval (fun _ : ι => gaussianReal 0 1) i
    rw [← gauss_exp_sq t ht]
    exact h.lintegral_comp (f := fun y => ENNReal.ofReal (Real.exp (-(t * y ^ 2)))) (by fun_prop)
  rw [Finset.prod_congr rfl fun i _ => e2 i, Finset.prod_const, Finset.card_univ, ← ENNReal.ofReal_pow (by positivity),
    ← Real.rpow_natCast, ← Real.rpow_mul (by positivity)]
  congr 2
  ring

theorem inv_le_lintegral (s : ℝ) (hs : 0 ≤ s) :
    ENNReal.ofReal (1 / s) ≤ ∫⁻ t in Set.Ioi (0 : ℝ), ENNReal.ofReal (Real.exp (-(t * s))) := by
  rcases hs.eq_or_lt with h | h
  · simp [← h]
  · have hi : IntegrableOn (fun t : ℝ => Real.exp (-s * t)) (Set.Ioi 0) := integrableOn_exp_mul_Ioi (by linarith) 0
    have e : ∀ t : ℝ, Real.exp (-(t * s)) = Real.exp (-s * t) := fun t => by ring_nf
    simp only [e]
    rw [← ofReal_integral_eq_lintegral_ofReal hi (Filter.Eventually.of_forall fun y => (Real.exp_pos _).le),
      integral_exp_mul_Ioi (by linarith)]
    apply le_of_eq
    congr 1
    simp

/-- **the mean of `1 / ‖x‖²`** in dimension at least three -/
theorem stdG_inv_sq (h : 3 ≤ Fintype.card ι) :
    ∫⁻ x, ENNReal.ofReal (1 / ∑ i, x i ^ 2) ∂(stdG ι) ≤ ENNReal.ofReal (1 / ((Fintype.card ι : ℝ) - 2)) := by
  calc ∫⁻ x, ENNReal.ofReal (1 / ∑ i, x i ^ 2) ∂(stdG ι)
      ≤ ∫⁻ x : ι → ℝ, (∫⁻ t in Set.Ioi (0 : ℝ), ENNReal.ofReal (Real.exp (-(t * ∑ i, x i ^ 2)))) ∂(stdG ι) :=
        lintegral_mono fun x => inv_le_lintegral _ (Finset.sum_nonneg fun _ _ => sq_nonneg _)
    _ = ∫⁻ t in Set.Ioi (0 : ℝ), ∫⁻ x : ι → ℝ, ENNReal.ofReal (Real.exp (-(t * ∑ i, x i ^ 2))) ∂(stdG ι) :=
        lintegral_lintegral_swap (by fun_prop)
    _ = ∫⁻ t in Set.Ioi (0 : ℝ), ENNReal.ofReal ((1 + 2 * t) ^ (-(Fintype.card ι : ℝ) / 2)) :=
        setLIntegral_congr_fun measurableSet_Ioi fun t ht => stdG_exp_sq t (le_of_lt ht)
    _ = ENNReal.ofReal (1 / ((Fintype.card ι : ℝ) - 2)) := by
        set n : ℝ := (Fintype.card ι : ℝ) with hn
        have hn3 : (3 : ℝ) ≤ n := by rw [hn]; exact_mod_cast h
        have hd : ∀ t ∈ Set.Ioi (0 : ℝ), HasDerivAt (fun t : ℝ => -(1 / (n - 2)) * (1 + 2 * t) ^ (1 - n / 2))
            ((1 + 2 * t) ^ (-n / 2)) t := by
          intro t ht
          have ht : 0 < t := ht
          have h1 : HasDerivAt (fun t : ℝ => 1 + 2 * t) 2 t := by
            simpa using ((hasDerivAt_id t).const_mul 2).const_add 1
          have h2 := (h1.rpow_const (p := 1 - n / 2) (Or.inl (by positivity))).const_mul (-(1 / (n - 2)))
          refine h2.congr_deriv ?_
          rw [show 1 - n / 2 - 1 = -n / 2 by ring]
          have : n - 2 ≠ 0 := by linarith
          field_simp
          ring
        have hcont : ContinuousWithinAt (fun t : ℝ => -(1 / (n - 2)) * (1 + 2 * t) ^ (1 - n / 2)) (Set.Ici 0) 0 := by
          apply ContinuousAt.continuousWithinAt
          refine continuousAt_const.mul (ContinuousAt.rpow_const (by fun_prop) (Or.inl (by norm_num)))
        have hlim : Filter.Tendsto (fun t : ℝ => -(1 / (n - 2)) * (1 + 2 * t) ^ (1 - n / 2)) Filter.atTop (nhds 0) := by
          have h1 : Filter.Tendsto (fun t : ℝ => 1 + 2 * t) Filter.atTop Filter.atTop :=
            Filter.tendsto_atTop_add_const_left _ _ (Filter.tendsto_id.const_mul_atTop (by norm_num))
          have h2 := (tendsto_rpow_neg_atTop (y := n / 2 - 1) (by linarith)).comp h1
          have h3 := h2.const_mul (-(1 / (n - 2)))
          rw [mul_zero] at h3
          refine h3.congr fun t => ?_
          simp only [Function.comp]
          rw [neg_sub]
        have hpos : ∀ t ∈ Set.Ioi (0 : ℝ), 0 ≤ (1 + 2 * t) ^ (-n / 2) := fun t ht => by
          have ht : 0 < t := ht
          positivity
        have hI := integrableOn_Ioi_deriv_of_nonneg hcont hd hpos hlim
        rw [← ofReal_integral_eq_lintegral_ofReal hI
          ((ae_restrict_iff' measurableSet_Ioi).2 (Filter.Eventually.of_forall hpos)),
          integral_Ioi_of_hasDerivAt_of_nonneg hcont hd hpos hlim]
        congr 1
        simp

end TTS
