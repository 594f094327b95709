import Verif.Proofs.SvdVals
import Verif.Proofs.ApproxSvd
import Mathlib.LinearAlgebra.Dimension.Constructions
import Mathlib.LinearAlgebra.FiniteDimensional.Lemmas

/-! Weyl's inequality for singular values. -/

namespace TTS

open Finset TTS.Spec

/-- More unknowns than equations: a nonzero solution. -/
theorem exists_kernel (t : ℕ) (a : ℕ → ℕ → ℝ) :
    ∃ c : ℕ → ℝ, (∃ i < t + 1, c i ≠ 0) ∧ ∀ j < t, ∑ i ∈ range (t + 1), c i * a i j = 0 := by
  let f : (Fin (t + 1) → ℝ) →ₗ[ℝ] (Fin t → ℝ) :=
    { toFun := fun c j => ∑ i, c i * a i j
      map_add' := by intro x y; funext j; simp [add_mul, sum_add_distrib]
      map_smul' := by intro k x; funext j; simp [mul_sum, mul_assoc] }
  have hk : LinearMap.ker f ≠ ⊥ := LinearMap.ker_ne_bot_of_finrank_lt (by simp)
  obtain ⟨c, hc, hc0⟩ := (Submodule.ne_bot_iff _).1 hk
  have hf : f c = 0 := hc
  refine ⟨fun i => if h : i < t + 1 then c ⟨i, h⟩ else 0, ?_, ?_⟩
  · obtain ⟨i, hi⟩ := Function.ne_iff.1 hc0
    refine ⟨i, i.2, ?_⟩
    beta_reduce
    rw [dif_pos i.2]; exact hi
  · intro j hj
    have := congrFun hf ⟨j, hj⟩
    have e : ∑ i : Fin (t + 1), c i * a i j = 0 := this
    have e2 := Fin.sum_univ_eq_sum_range (fun i => (if h : i < t + 1 then c ⟨i, h⟩ else 0) * a i j) (t + 1)
    beta_reduce
    rw [← e2, ← e]
    exact sum_congr rfl fun i _ => by rw [dif_pos i.2]

section
variable {ι κ : Type*} {J : Finset ι} {I : Finset κ}

/-- A matrix given by singular vectors, applied to a vector. -/
theorem sv_apply {A : ι → κ → ℝ} {u : ℕ → ι → ℝ} {v : ℕ → κ → ℝ} {S : ℕ → ℝ} {m : ℕ} (hu : Orthn J m u)
    (hA : ∀ p ∈ J, ∀ q ∈ I, A p q = ∑ t ∈ range m, u t p * S t * v t q) (x : κ → ℝ) :
    ∑ p ∈ J, (∑ q ∈ I, A p q * x q) ^ 2 = ∑ t ∈ range m, (S t * ∑ q ∈ I, x q * v t q) ^ 2 := by
  rw [← hu.parseval fun t => S t * ∑ q ∈ I, x q * v t q]
  refine sum_congr rfl fun p hp => ?_
  congr 1
  have : ∀ q ∈ I, A p q * x q = ∑ t ∈ range m, u t p * S t * v t q * x q := fun q hq => by rw [hA p hp q hq, sum_mul]
  rw [sum_congr rfl this, sum_comm]
  refine sum_congr rfl fun t _ => ?_
  rw [mul_sum, sum_mul]
  exact sum_congr rfl fun q _ => by ring

theorem mat_apply_le (A : ι → κ → ℝ) (x : κ → ℝ) :
    √ (∑ p ∈ J, (∑ q ∈ I, A p q * x q) ^ 2) ≤ √ (∑ p ∈ J, ∑ q ∈ I, A p q ^ 2) * √ (∑ q ∈ I, x q ^ 2) := by
  rw [← Real.sqrt_mul (sum_nonneg fun _ _ => sum_nonneg fun _ _ => sq_nonneg _)]
  refine Real.sqrt_le_sqrt ?_
  rw [sum_mul]
  exact sum_le_sum fun p _ => sum_mul_sq_le_sq_mul_sq _ _ _

/-- **Weyl's inequality**, one direction. -/
theorem weyl_le {A B : ι → κ → ℝ} {u u' : ℕ → ι → ℝ} {v v' : ℕ → κ → ℝ} {S T : ℕ → ℝ} {m n : ℕ}
    (hu : Orthn J m u) (hv : Orthn I m v) (hu' : Orthn J n u') (hv' : Orthn I n v')
    (hA : ∀ p ∈ J, ∀ q ∈ I, A p q = ∑ t ∈ range m, u t p * S t * v t q)
    (hB : ∀ p ∈ J, ∀ q ∈ I, B p q = ∑ t ∈ range n, u' t p * T t * v' t q)
    (hS0 : ∀ t, 0 ≤ S t) (hS : ∀ s t, s ≤ t → S t ≤ S s) (hT0 : ∀ t, 0 ≤ T t) (hT : ∀ s t, s ≤ t → T t ≤ T s)
    {t : ℕ} (ht : t < m) : S t ≤ T t + √ (∑ p ∈ J, ∑ q ∈ I, (A p q - B p q) ^ 2) := by
  obtain ⟨c, ⟨i0, hi0, hc0⟩, hc⟩ := exists_kernel t fun i j => ∑ q ∈ I, v i q * v' j q
  have hv1 := hv.mono (show t + 1 ≤ m by omega)
  obtain ⟨x, hx⟩ : ∃ x : κ → ℝ, x = fun q => ∑ i ∈ range (t + 1), c i * v i q := ⟨_, rfl⟩
  have hxn : ∑ q ∈ I, x q ^ 2 = ∑ i ∈ range (t + 1), c i ^ 2 := by rw [hx]; exact hv1.parseval c
  have hxpos : 0 < ∑ q ∈ I, x q ^ 2 := by
    rw [hxn]
    exact sum_pos' (fun _ _ => sq_nonneg _) ⟨i0, mem_range.2 hi0, by positivity⟩
  have hxv : ∀ i < t + 1, ∑ q ∈ I, x q * v i q = c i := by
    intro i hi
    have := hv1.inner c fun j => if j = i then 1 else 0
    rw [hx]
    have e : ∀ q, ∑ j ∈ range (t + 1), (if j = i then (1 : ℝ) else 0) * v j q = v i q := by
      intro q
      rw [sum_eq_single i]
      · simp
      · intro b _ hb; simp [hb]
      · intro h; exact absurd (mem_range.2 hi) h
    simp only [e] at this
    rw [this, sum_eq_single i]
    · simp
    · intro b _ hb; simp [hb]
    · intro h; exact absurd (mem_range.2 hi) h
  have hxv' : ∀ j < t, ∑ q ∈ I, x q * v' j q = 0 := by
    intro j hj
    rw [← hc j hj, hx]
    simp only [sum_mul, mul_sum]
    rw [sum_comm]
    exact sum_congr rfl fun i _ => sum_congr rfl fun q _ => by ring
  have hAx : S t ^ 2 * ∑ q ∈ I, x q ^ 2 ≤ ∑ p ∈ J, (∑ q ∈ I, A p q * x q) ^ 2 := by
    rw [sv_apply hu hA x, hxn, mul_sum]
    refine le_trans (sum_le_sum fun i hi => ?_) (sum_le_sum_of_subset_of_nonneg
      (range_subset_range.2 (show t + 1 ≤ m by omega)) fun _ _ _ => sq_nonneg _)
    have hi : i < t + 1 := by simpa using hi
    rw [hxv i hi, mul_pow]
    exact mul_le_mul_of_nonneg_right (pow_le_pow_left₀ (hS0 t) (hS i t (by omega)) 2) (sq_nonneg _)
  have hBx : ∑ p ∈ J, (∑ q ∈ I, B p q * x q) ^ 2 ≤ T t ^ 2 * ∑ q ∈ I, x q ^ 2 := by
    rw [sv_apply hu' hB x]
    refine le_trans ?_ (mul_le_mul_of_nonneg_left (hv'.bessel x) (sq_nonneg _))
    rw [mul_sum]
    refine sum_le_sum fun j _ => ?_
    by_cases hj : j < t
    · rw [hxv' j hj]; simp
    · rw [mul_pow]
      exact mul_le_mul_of_nonneg_right (pow_le_pow_left₀ (hT0 j) (hT t j (by omega)) 2) (sq_nonneg _)
  have hx0 : 0 < √ (∑ q ∈ I, x q ^ 2) := Real.sqrt_pos.2 hxpos
  have a1 : S t * √ (∑ q ∈ I, x q ^ 2) ≤ √ (∑ p ∈ J, (∑ q ∈ I, A p q * x q) ^ 2) := by
    have := Real.sqrt_le_sqrt hAx
    rwa [Real.sqrt_mul (sq_nonneg _), Real.sqrt_sq (hS0 t)] at this
  have a2 : √ (∑ p ∈ J, (∑ q ∈ I, B p q * x q) ^ 2) ≤ T t * √ (∑ q ∈ I, x q ^ 2) := by
    have := Real.sqrt_le_sqrt hBx
    rwa [Real.sqrt_mul (sq_nonneg _), Real.sqrt_sq (hT0 t)] at this
  have a3 := mat_apply_le (J := J) (I := I) (fun p q => A p q - B p q) x
  have a4 := sqrt_sum_add_le J (fun p => ∑ q ∈ I, B p q * x q) (fun p => ∑ q ∈ I, (A p q - B p q) * x q)
  have e : ∀ p, ∑ q ∈ I, B p q * x q + ∑ q ∈ I, (A p q - B p q) * x q = ∑ q ∈ I, A p q * x q := by
    intro p; rw [← sum_add_distrib]; exact sum_congr rfl fun q _ => by ring
  simp only [e] at a4
  refine le_of_mul_le_mul_right ?_ hx0
  rw [add_mul]
  linarith
end

/-- The distance between two functions on a range of indices. -/
noncomputable def fdist (sh : List ℕ) (f g : List ℕ → ℝ) : ℝ := √ (sumIdx sh fun i => (f i - g i) ^ 2)

theorem fdist_nonneg (sh : List ℕ) (f g : List ℕ → ℝ) : 0 ≤ fdist sh f g := Real.sqrt_nonneg _

theorem fdist_triangle (sh : List ℕ) (f g h : List ℕ → ℝ) : fdist sh f h ≤ fdist sh f g + fdist sh g h := by
  unfold fdist
  simp only [sumIdx_eq_sum]
  refine le_trans (le_of_eq ?_) (sqrt_sum_add_le (idxSet sh) (fun z => f z - g z) (fun z => g z - h z))
  congr 1
  exact sum_congr rfl fun z _ => by ring

theorem fdist_symm (sh : List ℕ) (f g : List ℕ → ℝ) : fdist sh f g = fdist sh g f := by
  unfold fdist
  congr 1
  exact sumIdx_congr fun z _ => by ring

theorem fdist_append (s1 s2 : List ℕ) (f g : List ℕ → ℝ) :
    fdist (s1 ++ s2) f g = √ (∑ p ∈ idxSet s1, ∑ q ∈ idxSet s2, (f (p ++ q) - g (p ++ q)) ^ 2) := by
  unfold fdist
  rw [sumIdx_append, sumIdx_eq_sum]
  congr 1
  exact sum_congr rfl fun p _ => sumIdx_eq_sum _

theorem fdist_zero_of_eq {sh : List ℕ} {f g : List ℕ → ℝ} (h : ∀ i, InR sh i → f i = g i) : fdist sh f g = 0 := by
  unfold fdist
  rw [sumIdx_eq_sum, sum_eq_zero, Real.sqrt_zero]
  intro i hi
  rw [h i (mem_idxSet.1 hi)]; ring

/-- **Weyl's inequality** for the singular values of two tensors. -/
theorem SVsF.weyl {f g : List ℕ → ℝ} {s1 s2 : List ℕ} {S T : List ℝ} (h : SVsF f s1 s2 S) (h' : SVsF g s1 s2 T) (t : ℕ) :
    |S.getD t 0 - T.getD t 0| ≤ fdist (s1 ++ s2) f g := by
  have key : ∀ {f g : List ℕ → ℝ} {S T : List ℝ}, SVsF f s1 s2 S → SVsF g s1 s2 T →
      S.getD t 0 ≤ T.getD t 0 + fdist (s1 ++ s2) f g := by
    intro f g S T h h'
    obtain ⟨h1, h2, u, v, hu, hv, hf⟩ := h
    obtain ⟨k1, k2, u', v', hu', hv', hg⟩ := h'
    by_cases ht : t < S.length
    · rw [fdist_append]
      exact weyl_le (A := fun p q => f (p ++ q)) (B := fun p q => g (p ++ q)) hu hv hu' hv'
        (fun p hp q hq => hf p q (mem_idxSet.1 hp) (mem_idxSet.1 hq))
        (fun p hp q hq => hg p q (mem_idxSet.1 hp) (mem_idxSet.1 hq)) h1 h2 k1 k2 ht
    · rw [List.getD_eq_default _ _ (by omega)]
      exact add_nonneg (k1 t) (fdist_nonneg _ _ _)
  have a := key h h'
  have b := key h' h
  rw [fdist_symm] at b
  rw [abs_le]
  constructor <;> linarith

end TTS
