import Verif.Proofs.GaussLaw
import Mathlib.LinearAlgebra.Matrix.NonsingularInverse

/-!
# The mean of the inverse Gram matrix of a Gaussian matrix
-/

namespace TTS

open MeasureTheory ProbabilityTheory Matrix
open scoped ENNReal

/-- the matrix with the given entries -/
def gm {k l : Type*} (G : k × l → ℝ) : Matrix k l ℝ := Matrix.of fun i j => G (i, j)

/-- a random matrix with measurable entries -/
def MMeas {α : Type*} [MeasurableSpace α] {k l : Type*} (W : α → Matrix k l ℝ) : Prop := ∀ i j, Measurable fun a => W a i j

namespace MMeas
variable {α : Type*} [MeasurableSpace α] {k l m : Type*}

theorem const (A : Matrix k l ℝ) : MMeas fun _ : α => A := fun _ _ => measurable_const

theorem gm : MMeas (TTS.gm : (k × l → ℝ) → Matrix k l ℝ) := fun i j => measurable_pi_apply (i, j)

theorem transpose {W : α → Matrix k l ℝ} (h : MMeas W) : MMeas fun a => (W a)ᵀ := fun i j => h j i

theorem mul [Fintype l] {W : α → Matrix k l ℝ} {V : α → Matrix l m ℝ} (h : MMeas W) (h' : MMeas V) :
    MMeas fun a => W a * V a := fun i j => by
  simp only [Matrix.mul_apply]
  exact Finset.measurable_sum _ fun t _ => (h i t).mul (h' t j)

theorem sub {W V : α → Matrix k l ℝ} (h : MMeas W) (h' : MMeas V) : MMeas fun a => W a - V a :=
  fun i j => (h i j).sub (h' i j)

theorem comp {β : Type*} [MeasurableSpace β] {W : α → Matrix k l ℝ} (h : MMeas W) {f : β → α} (hf : Measurable f) :
    MMeas fun b => W (f b) := fun i j => (h i j).comp hf

theorem det [Fintype k] [DecidableEq k] {W : α → Matrix k k ℝ} (h : MMeas W) : Measurable fun a => (W a).det := by
  simp only [Matrix.det_apply]
  exact Finset.measurable_sum _ fun σ _ => (Finset.measurable_prod _ fun i _ => h _ _).const_smul _

/-- entries of the inverse are measurable -/
theorem inv [Fintype k] [DecidableEq k] {W : α → Matrix k k ℝ} (h : MMeas W) : MMeas fun a => (W a)⁻¹ := by
  intro i j
  have e : ∀ a, (W a)⁻¹ i j = (W a).det⁻¹ * ((W a).updateRow j (Pi.single i 1)).det := by
    intro a
    rw [Matrix.inv_def, Ring.inverse_eq_inv', Matrix.smul_apply, smul_eq_mul, Matrix.adjugate_apply]
  simp only [e]
  refine h.det.inv.mul (MMeas.det fun a b => ?_)
  simp only [Matrix.updateRow_apply]
  split
  · exact measurable_const
  · exact h a b

end MMeas

/-- a diagonal entry of the inverse Gram matrix: one over the squared distance of a row to the span of the others -/
theorem gram_inv_le {k l q : Type*} [Fintype k] [DecidableEq k] [Fintype l] [Fintype q] (R : Matrix k l ℝ) (i : k)
    (M : Matrix q l ℝ) (h0 : ∀ i', i' ≠ i → M *ᵥ R i' = 0)
    (h1 : ∀ z : l → ℝ, (∀ i', i' ≠ i → R i' ⬝ᵥ z = 0) → (M *ᵥ z) ⬝ᵥ (M *ᵥ z) = z ⬝ᵥ z) :
    (R * Rᵀ)⁻¹ i i ≤ 1 / ∑ a, (M *ᵥ R i) a ^ 2 := by
  have hs : ∑ a, (M *ᵥ R i) a ^ 2 = (M *ᵥ R i) ⬝ᵥ (M *ᵥ R i) := by simp only [dotProduct, sq]
  by_cases hd : IsUnit (R * Rᵀ).det
  · set x : k → ℝ := (R * Rᵀ)⁻¹ *ᵥ Pi.single i 1 with hx
    have hxi : x i = (R * Rᵀ)⁻¹ i i := by simp [hx]
    set f : l → ℝ := x ᵥ* R with hf
    have hRf : R *ᵥ f = Pi.single i 1 := by
      rw [hf, ← Matrix.mulVec_transpose, Matrix.mulVec_mulVec, hx, Matrix.mulVec_mulVec, Matrix.mul_nonsing_inv _ hd,
        Matrix.one_mulVec]
    have hff : f ⬝ᵥ f = x i := by
      have : (x ᵥ* R) ⬝ᵥ f = x ⬝ᵥ (R *ᵥ f) := (Matrix.dotProduct_mulVec x R f).symm
      rw [hf] at this ⊢
      rw [this, ← hf, hRf]
      simp
    have hMf : M *ᵥ f = x i • (M *ᵥ R i) := by
      have e : f = ∑ i', x i' • R i' := by
        rw [hf]; ext j; simp [Matrix.vecMul, dotProduct]
      rw [e, Matrix.mulVec_sum, Finset.sum_eq_single i]
      · rw [Matrix.mulVec_smul]
      · intro i' _ hi'
        rw [Matrix.mulVec_smul, h0 i' hi', smul_zero]
      · simp
    have hiso := h1 f fun i' hi' => by
      have := congrFun hRf i'
      rwa [Pi.single_eq_of_ne hi'] at this
    rw [hMf, hff, smul_dotProduct, dotProduct_smul, ← hs, smul_eq_mul, smul_eq_mul] at hiso
    have hne : x i ≠ 0 := by
      intro h
      rw [h] at hff
      have : f = 0 := dotProduct_self_eq_zero.1 hff
      rw [this, Matrix.mulVec_zero] at hRf
      have := congrFun hRf i
      simp at this
    have h2 : x i * ∑ a, (M *ᵥ R i) a ^ 2 = 1 := by
      have := mul_left_cancel₀ hne (hiso.trans (mul_one _).symm)
      exact this
    rw [← hxi, ← h2, mul_div_assoc, div_self, mul_one]
    intro h
    rw [h] at h2
    simp at h2
  · rw [Matrix.nonsing_inv_apply_not_isUnit _ hd]
    simp only [Matrix.zero_apply]
    exact div_nonneg zero_le_one (Finset.sum_nonneg fun _ _ => sq_nonneg _)

/-- a matrix whose rows are an orthonormal basis of what is orthogonal to given vectors -/
theorem exists_complement {k : Type*} [Fintype k] (l : ℕ) (z : k → Fin l → ℝ) :
    ∃ (q : ℕ) (M : Matrix (Fin q) (Fin l) ℝ), l ≤ q + Fintype.card k ∧ M * Mᵀ = 1 ∧ (∀ i, M *ᵥ z i = 0) ∧
      ∀ v : Fin l → ℝ, (∀ i, z i ⬝ᵥ v = 0) → (M *ᵥ v) ⬝ᵥ (M *ᵥ v) = v ⬝ᵥ v := by
  classical
  set U : Submodule ℝ (EuclideanSpace ℝ (Fin l)) := Submodule.span ℝ (Set.range fun i => WithLp.toLp 2 (z i)) with hU
  have hfr : Module.finrank ℝ U ≤ Fintype.card k := finrank_range_le_card _
  have hsum := U.finrank_add_finrank_orthogonal
  rw [finrank_euclideanSpace_fin] at hsum
  set b := stdOrthonormalBasis ℝ Uᗮ with hb
  set M : Matrix (Fin (Module.finrank ℝ Uᗮ)) (Fin l) ℝ := Matrix.of fun a j => (b a : EuclideanSpace ℝ (Fin l)) j with hM
  have hin : ∀ (a) (v : Fin l → ℝ), (M *ᵥ v) a = inner ℝ (b a : EuclideanSpace ℝ (Fin l)) (WithLp.toLp 2 v) := by
    intro a v
    rw [PiLp.inner_apply]
    show ∑ j, M a j * v j = _
    refine Finset.sum_congr rfl fun j _ => ?_
    rw [RCLike.inner_apply, conj_trivial, mul_comm]
    rfl
  refine ⟨_, M, by omega, ?_, ?_, ?_⟩
  · ext a c
    have h := orthonormal_iff_ite.1 b.orthonormal a c
    rw [Matrix.one_apply, ← h, Submodule.coe_inner, PiLp.inner_apply, Matrix.mul_apply]
    refine Finset.sum_congr rfl fun j _ => ?_
    rw [RCLike.inner_apply, conj_trivial, mul_comm]
    rfl
  · intro i
    ext a
    rw [hin]
    exact (Submodule.mem_orthogonal' _ _).1 (b a).2 _ (Submodule.subset_span ⟨i, rfl⟩)
  · intro v hv
    have hmem : WithLp.toLp 2 v ∈ Uᗮ := by
      rw [Submodule.mem_orthogonal]
      intro u hu
      induction hu using Submodule.span_induction with
      | mem x hx =>
        obtain ⟨i, rfl⟩ := hx
        have := hv i
        simpa [dotProduct, PiLp.inner_apply, mul_comm] using this
      | zero => simp
      | add x y _ _ h1 h2 => rw [inner_add_left, h1, h2, add_zero]
      | smul c x _ h1 => rw [inner_smul_left, h1, mul_zero]
    have h := b.sum_sq_inner_right ⟨_, hmem⟩
    have e1 : ∀ a, inner ℝ (b a) (⟨_, hmem⟩ : Uᗮ) = (M *ᵥ v) a := by
      intro a
      rw [hin, Submodule.coe_inner]
    simp only [e1] at h
    have e2 : ‖(⟨_, hmem⟩ : Uᗮ)‖ ^ 2 = v ⬝ᵥ v := by
      rw [Submodule.coe_norm, EuclideanSpace.real_norm_sq_eq]
      simp [dotProduct, sq]
    rw [e2] at h
    rw [← h]
    simp only [dotProduct, sq]

/-- **the mean of a diagonal entry of the inverse Gram matrix** of a `k × l` Gaussian matrix is at most `1/(l-k-1)` -/
theorem stdG_gram_inv {k l : ℕ} (i : Fin k) (h : k + 2 ≤ l) :
    ∫⁻ G, ENNReal.ofReal ((gm G * (gm G)ᵀ)⁻¹ i i) ∂(stdG (Fin k × Fin l)) ≤ ENNReal.ofReal (1 / ((l : ℝ) - k - 1)) := by
  classical
  set o := {i' : Fin k // i' ≠ i}
  set e : (o × Fin l) ⊕ Fin l → Fin k × Fin l := fun s => Sum.elim (fun p => (p.1.1, p.2)) (fun j => (i, j)) s with he
  have hinj : Function.Injective e := by
    rintro (⟨⟨a, ha⟩, j⟩ | j) (⟨⟨b, hb⟩, j'⟩ | j') hh <;> simp_all
    exact hb hh.1.symm
  -- the matrix from the two blocks
  set R : (o × Fin l → ℝ) → (Fin l → ℝ) → Matrix (Fin k) (Fin l) ℝ := fun z y => Matrix.of fun i' j =>
    if hi : i' = i then y j else z (⟨i', hi⟩, j) with hR
  have hRm : MMeas fun p : (o × Fin l → ℝ) × (Fin l → ℝ) => R p.1 p.2 := by
    intro i' j
    simp only [hR, Matrix.of_apply]
    split
    · fun_prop
    · fun_prop
  have hfm : Measurable fun p : (o × Fin l → ℝ) × (Fin l → ℝ) =>
      ENNReal.ofReal ((R p.1 p.2 * (R p.1 p.2)ᵀ)⁻¹ i i) := ((hRm.mul hRm.transpose).inv i i).ennreal_ofReal
  have hgm : ∀ G : Fin k × Fin l → ℝ, gm G = R (fun p => G (e (.inl p))) fun j => G (e (.inr j)) := by
    intro G
    ext i' j
    simp only [gm, hR, Matrix.of_apply, he, Sum.elim_inl, Sum.elim_inr]
    split
    · next h => rw [h]
    · rfl
  have hstep : ∫⁻ G, ENNReal.ofReal ((gm G * (gm G)ᵀ)⁻¹ i i) ∂(stdG (Fin k × Fin l))
      = ∫⁻ z, ∫⁻ y, ENNReal.ofReal ((R z y * (R z y)ᵀ)⁻¹ i i) ∂(stdG (Fin l)) ∂(stdG (o × Fin l)) := by
    rw [← stdG_sum (fun z y => ENNReal.ofReal ((R z y * (R z y)ᵀ)⁻¹ i i)) hfm, ← stdG_comp e hinj, lintegral_map]
    · exact lintegral_congr fun G => by rw [hgm G]
    · exact hfm.comp (f := fun x : (o × Fin l) ⊕ Fin l → ℝ => ((fun p => x (.inl p)), fun j => x (.inr j))) (by fun_prop)
    · fun_prop
  rw [hstep]
  have hinner : ∀ z, ∫⁻ y, ENNReal.ofReal ((R z y * (R z y)ᵀ)⁻¹ i i) ∂(stdG (Fin l))
      ≤ ENNReal.ofReal (1 / ((l : ℝ) - k - 1)) := by
    intro z
    obtain ⟨q, M, hq, hMM, hM0, hMi⟩ := exists_complement l fun (i' : o) j => z (i', j)
    have hrow : ∀ y (i' : Fin k) (hi : i' ≠ i), R z y i' = fun j => z (⟨i', hi⟩, j) := by
      intro y i' hi
      funext j
      simp [hR, hi]
    have hrowi : ∀ y, R z y i = y := by
      intro y
      funext j
      simp [hR]
    have hcard : Fintype.card o + 1 = k := by
      have := Fintype.card_subtype_compl (fun i' : Fin k => i' = i)
      rw [Fintype.card_fin, Fintype.card_subtype_eq] at this
      have h2 : Fintype.card o = k - 1 := this
      have := i.pos
      omega
    have hq3 : 3 ≤ Fintype.card (Fin q) := by rw [Fintype.card_fin]; omega
    have hmm : Measurable fun x : Fin l → ℝ => M *ᵥ x := by
      refine measurable_pi_lambda _ fun k => ?_
      simp only [Matrix.mulVec, dotProduct]
      fun_prop
    calc ∫⁻ y, ENNReal.ofReal ((R z y * (R z y)ᵀ)⁻¹ i i) ∂(stdG (Fin l))
        ≤ ∫⁻ y, ENNReal.ofReal (1 / ∑ a, (M *ᵥ y) a ^ 2) ∂(stdG (Fin l)) := by
          refine lintegral_mono fun y => ENNReal.ofReal_le_ofReal ?_
          have := gram_inv_le (R z y) i M (fun i' hi => by rw [hrow y i' hi]; exact hM0 ⟨i', hi⟩)
            fun v hv => hMi v fun i' => by
              have := hv i'.1 i'.2
              rwa [hrow y i'.1 i'.2] at this
          rwa [hrowi] at this
      _ = ∫⁻ w, ENNReal.ofReal (1 / ∑ a, w a ^ 2) ∂(stdG (Fin q)) := by
          rw [← stdG_map_matrix M hMM, lintegral_map (by fun_prop) hmm]
      _ ≤ ENNReal.ofReal (1 / ((Fintype.card (Fin q) : ℝ) - 2)) := stdG_inv_sq hq3
      _ ≤ ENNReal.ofReal (1 / ((l : ℝ) - k - 1)) := by
          apply ENNReal.ofReal_le_ofReal
          rw [Fintype.card_fin]
          have h1 : ((k : ℝ) + 2 ≤ l) := by exact_mod_cast h
          have h2 : (l : ℝ) ≤ q + (k - 1) := by
            have : (l : ℝ) + 1 ≤ q + k := by
              have : l + 1 ≤ q + k := by omega
              exact_mod_cast this
            linarith
          exact one_div_le_one_div_of_le (by linarith) (by linarith)
  calc _ ≤ ∫⁻ _, ENNReal.ofReal (1 / ((l : ℝ) - k - 1)) ∂(stdG (o × Fin l)) := lintegral_mono hinner
    _ = _ := by rw [lintegral_const, measure_univ, mul_one]

end TTS
