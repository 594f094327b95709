import Verif.Proofs.ApproxHmt
import Verif.Proofs.Assemble
import Verif.Props.Recover
import Verif.Spec.ApproxStream

/-! Reconstruction of a sketched tensor with inexact least squares. -/

namespace TTS

open Finset

/-! ### Residuals of the least squares problems -/

theorem sqrt_sum_sub_le {ι : Type*} (s : Finset ι) (f g h : ι → ℝ) :
    √ (∑ i ∈ s, (f i - h i) ^ 2) ≤ √ (∑ i ∈ s, (f i - g i) ^ 2) + √ (∑ i ∈ s, (g i - h i) ^ 2) := by
  refine le_trans (le_of_eq ?_) (sqrt_sum_add_le s (fun i => f i - g i) (fun i => g i - h i))
  congr 1
  exact sum_congr rfl fun i _ => by ring

theorem matvec_le (m n : ℕ) (A : ℕ → ℕ → ℝ) (x : ℕ → ℝ) :
    √ (∑ i ∈ range m, (∑ t ∈ range n, A i t * x t) ^ 2)
      ≤ √ (∑ i ∈ range m, ∑ t ∈ range n, A i t ^ 2) * √ (∑ t ∈ range n, x t ^ 2) := by
  rw [← Real.sqrt_mul (sum_nonneg fun _ _ => sum_nonneg fun _ _ => sq_nonneg _)]
  refine Real.sqrt_le_sqrt ?_
  rw [sum_mul]
  exact sum_le_sum fun i _ => sum_mul_sq_le_sq_mul_sq _ _ _

/-- Another matrix and right hand side. -/
theorem resid_change (m n : ℕ) (A A' : ℕ → ℕ → ℝ) (x b b' : ℕ → ℝ) :
    √ (∑ i ∈ range m, (∑ t ∈ range n, A i t * x t - b i) ^ 2)
      ≤ √ (∑ i ∈ range m, (∑ t ∈ range n, A' i t * x t - b' i) ^ 2)
        + √ (∑ i ∈ range m, ∑ t ∈ range n, (A i t - A' i t) ^ 2) * √ (∑ t ∈ range n, x t ^ 2)
        + √ (∑ i ∈ range m, (b i - b' i) ^ 2) := by
  have h1 := sqrt_sum_add_le (range m) (fun i => (∑ t ∈ range n, A' i t * x t - b' i)
    + ∑ t ∈ range n, (A i t - A' i t) * x t) (fun i => b' i - b i)
  have h2 := sqrt_sum_add_le (range m) (fun i => ∑ t ∈ range n, A' i t * x t - b' i)
    (fun i => ∑ t ∈ range n, (A i t - A' i t) * x t)
  have h3 := matvec_le m n (fun i t => A i t - A' i t) x
  have e : √ (∑ i ∈ range m, (b' i - b i) ^ 2) = √ (∑ i ∈ range m, (b i - b' i) ^ 2) := by
    congr 1; exact sum_congr rfl fun i _ => by ring
  rw [e] at h1
  refine le_trans (le_of_eq ?_) (h1.trans (by linarith))
  congr 1
  refine sum_congr rfl fun i _ => ?_
  simp only [sub_mul, sum_sub_distrib]
  ring

theorem lstsq_col {m n : ℕ} {A A' : ℕ → ℕ → ℝ} {x b b' : ℕ → ℝ}
    (h : ∀ z : ℕ → ℝ, ∑ i ∈ range m, (∑ t ∈ range n, A' i t * x t - b' i) ^ 2
      ≤ ∑ i ∈ range m, (∑ t ∈ range n, A' i t * z t - b' i) ^ 2) {α β : ℝ}
    (hA : √ (∑ i ∈ range m, ∑ t ∈ range n, (A i t - A' i t) ^ 2) ≤ α)
    (hb : √ (∑ i ∈ range m, (b i - b' i) ^ 2) ≤ β) (z : ℕ → ℝ) :
    √ (∑ i ∈ range m, (∑ t ∈ range n, A i t * x t - b i) ^ 2)
      ≤ √ (∑ i ∈ range m, (∑ t ∈ range n, A i t * z t - b i) ^ 2)
        + α * (√ (∑ t ∈ range n, x t ^ 2) + √ (∑ t ∈ range n, z t ^ 2)) + 2 * β := by
  have h1 := resid_change m n A A' x b b'
  have h2 := resid_change m n A' A z b' b
  have h3 := Real.sqrt_le_sqrt (h z)
  have e1 : √ (∑ i ∈ range m, ∑ t ∈ range n, (A' i t - A i t) ^ 2)
      = √ (∑ i ∈ range m, ∑ t ∈ range n, (A i t - A' i t) ^ 2) := by
    congr 1; exact sum_congr rfl fun i _ => sum_congr rfl fun t _ => by ring
  have e2 : √ (∑ i ∈ range m, (b' i - b i) ^ 2) = √ (∑ i ∈ range m, (b i - b' i) ^ 2) := by
    congr 1; exact sum_congr rfl fun i _ => by ring
  rw [e1, e2] at h2
  have h4 := mul_le_mul_of_nonneg_right hA (Real.sqrt_nonneg (∑ t ∈ range n, x t ^ 2))
  have h5 := mul_le_mul_of_nonneg_right hA (Real.sqrt_nonneg (∑ t ∈ range n, z t ^ 2))
  linarith

/-- Summing bounds for the columns. -/
theorem columns_le {k : ℕ} {e p x z b : ℕ → ℝ} {α β : ℝ} (hα : 0 ≤ α) (hβ : 0 ≤ β) (he : ∀ j < k, 0 ≤ e j)
    (h : ∀ j < k, √ (e j) ≤ √ (p j) + α * (√ (x j) + √ (z j)) + β * √ (b j))
    (hp : ∀ j < k, 0 ≤ p j) (hx : ∀ j < k, 0 ≤ x j) (hz : ∀ j < k, 0 ≤ z j) (hb : ∀ j < k, 0 ≤ b j) :
    √ (∑ j ∈ range k, e j) ≤ √ (∑ j ∈ range k, p j)
      + α * (√ (∑ j ∈ range k, x j) + √ (∑ j ∈ range k, z j)) + β * √ (∑ j ∈ range k, b j) := by
  have sq : ∀ {g : ℕ → ℝ}, (∀ j < k, 0 ≤ g j) → ∑ j ∈ range k, g j = ∑ j ∈ range k, √ (g j) ^ 2 := fun hg =>
    sum_congr rfl fun j hj => (Real.sq_sqrt (hg j (by simpa using hj))).symm
  have sc : ∀ {g : ℕ → ℝ} {c : ℝ}, 0 ≤ c → (∀ j < k, 0 ≤ g j) →
      √ (∑ j ∈ range k, (c * √ (g j)) ^ 2) = c * √ (∑ j ∈ range k, g j) := by
    intro g c hc hg
    rw [sq hg]
    simp only [mul_pow]
    rw [← mul_sum, Real.sqrt_mul (sq_nonneg c), Real.sqrt_sq hc]
  have h0 : √ (∑ j ∈ range k, e j)
      ≤ √ (∑ j ∈ range k, (((√ (p j) + α * √ (x j)) + α * √ (z j)) + β * √ (b j)) ^ 2) := by
    refine Real.sqrt_le_sqrt ?_
    rw [sq he]
    refine sum_le_sum fun j hj => ?_
    refine pow_le_pow_left₀ (Real.sqrt_nonneg _) ?_ 2
    have := h j (by simpa using hj)
    linarith
  have h1 := sqrt_sum_add_le (range k) (fun j => (√ (p j) + α * √ (x j)) + α * √ (z j)) (fun j => β * √ (b j))
  have h2 := sqrt_sum_add_le (range k) (fun j => √ (p j) + α * √ (x j)) (fun j => α * √ (z j))
  have h3 := sqrt_sum_add_le (range k) (fun j => √ (p j)) (fun j => α * √ (x j))
  rw [sc hβ hb] at h1
  rw [sc hα hz] at h2
  rw [sc hα hx, ← sq hp] at h3
  linarith

theorem lstsq_resid {ε : ℝ} (hε : 0 ≤ ε) {A B X : ND ℝ} {m n k : ℕ} (hA : A.shape = [m, n])
    (h : IsApproxLstsq ε A B X m n k) (Z : ℕ → ℕ → ℝ) :
    √ (∑ j ∈ range k, ∑ i ∈ range m, (∑ t ∈ range n, A.get [i, t] * X.get [t, j] - B.get [i, j]) ^ 2)
      ≤ √ (∑ j ∈ range k, ∑ i ∈ range m, (∑ t ∈ range n, A.get [i, t] * Z t j - B.get [i, j]) ^ 2)
        + ε * frobN A * (√ (∑ j ∈ range k, ∑ t ∈ range n, X.get [t, j] ^ 2) + √ (∑ j ∈ range k, ∑ t ∈ range n, Z t j ^ 2))
        + 2 * ε * √ (∑ j ∈ range k, ∑ i ∈ range m, B.get [i, j] ^ 2) := by
  refine columns_le (mul_nonneg hε (frobN_nonneg _)) (by linarith) ?_ (fun j hj => ?_) ?_ ?_ ?_ ?_
  · exact fun _ _ => sum_nonneg fun _ _ => sq_nonneg _
  · obtain ⟨A', b, h1, h2, h3⟩ := h.2 j hj
    have hA' : √ (∑ i ∈ range m, ∑ t ∈ range n, (A.get [i, t] - A'.get [i, t]) ^ 2) ≤ ε * frobN A := by
      rw [← frobD_mat hA, Real.sqrt_sq (frobD_nonneg _ _)]; exact h1
    have := lstsq_col h3 hA' h2 fun t => Z t j
    rw [mul_assoc 2]
    exact this
  all_goals exact fun _ _ => sum_nonneg fun _ _ => sq_nonneg _

theorem frobD_eq3 {A B : ND ℝ} {a b c : ℕ} (h : A.shape = [a, b, c]) :
    frobD A B = √ (∑ i ∈ range a, ∑ j ∈ range b, ∑ k ∈ range c, (A.get [i, j, k] - B.get [i, j, k]) ^ 2) := by
  rw [← frob3 h, Real.sqrt_sq (frobD_nonneg _ _)]

theorem frobN_eq3 {A : ND ℝ} {a b c : ℕ} (h : A.shape = [a, b, c]) :
    frobN A = √ (∑ i ∈ range a, ∑ j ∈ range b, ∑ k ∈ range c, A.get [i, j, k] ^ 2) := by
  rw [← frobD_zeros A [], frobD_eq3 h]
  congr 1
  exact sum_congr rfl fun _ _ => sum_congr rfl fun _ _ => sum_congr rfl fun _ _ => by rw [ND.zeros_get, sub_zero]

/-- The core of direction `right`. -/
theorem rightCore_approx {env : Env ℝ} {ε : ℝ} (hε : 0 ≤ ε) (hE : LstsqApproxContract env ε) {P O : ND ℝ} {a n r l : ℕ}
    (hP : P.shape = [a, n, r]) (hO : O.shape = [l, r]) :
    ∃ C, (rightMulPinv env (P.reshape [a * n, r]) O).reshape? [a, n, l] = .ok C ∧ C.shape = [a, n, l] ∧
      ∀ Z : ND ℝ, Z.shape = [a, n, l] → frobD (ND.es_ijk_kl_ijl C O) P
        ≤ frobD (ND.es_ijk_kl_ijl Z O) P + ε * frobN O * (frobN C + frobN Z) + 2 * ε * frobN P := by
  have hM : (P.reshape [a * n, r]).shape = [a * n, r] := rfl
  have h0 := hE O.matT (P.reshape [a * n, r]).matT r l (a * n) (ND.matT_shape hO) (ND.matT_shape hM)
  have h1 := h0.1
  have h3 := ND.matT_shape h1
  refine ⟨_, reshape?_ok h3 (by simp [mul_assoc]), rfl, fun Z hZ => ?_⟩
  have key := lstsq_resid hε (ND.matT_shape hO) h0 fun t j => Z.get [j / n, j % n, t]
  have hC : ((rightMulPinv env (P.reshape [a * n, r]) O).reshape [a, n, l]).shape = [a, n, l] := rfl
  have cget : ∀ i j c, j < n → ((rightMulPinv env (P.reshape [a * n, r]) O).reshape [a, n, l]).get [i, j, c]
      = (env.lstsq O.matT (P.reshape [a * n, r]).matT).get [c, i * n + j] := by
    intro i j c hj
    rw [rightMulPinv, ND.reshape_split12 h3 i j c hj, ND.matT_get h1]
  have eO : frobN O.matT = frobN O := by
    have h : frobN O.matT ^ 2 = frobN O ^ 2 := by
      rw [frobN_mat hO, frobN_mat (ND.matT_shape hO), sum_comm]
      exact sum_congr rfl fun i _ => sum_congr rfl fun j _ => by rw [ND.matT_get hO]
    exact (pow_left_inj₀ (frobN_nonneg _) (frobN_nonneg _) two_ne_zero).1 h
  rw [frobD_eq3 (ND.es_ijk_kl_ijl_shape hC hO), frobD_eq3 (ND.es_ijk_kl_ijl_shape hZ hO), frobN_eq3 hC, frobN_eq3 hZ,
    frobN_eq3 hP]
  rw [range_mul_sum, range_mul_sum, range_mul_sum, range_mul_sum, range_mul_sum, eO] at key
  have q1 : ∀ x ∈ range a, ∀ i ∈ range n, ∑ b ∈ range r, (∑ t ∈ range l, O.matT.get [b, t]
        * (env.lstsq O.matT (P.reshape [a * n, r]).matT).get [t, x * n + i]
        - (P.reshape [a * n, r]).matT.get [b, x * n + i]) ^ 2
      = ∑ b ∈ range r, ((ND.es_ijk_kl_ijl ((rightMulPinv env (P.reshape [a * n, r]) O).reshape [a, n, l]) O).get [x, i, b]
        - P.get [x, i, b]) ^ 2 := by
    intro x _ i hi
    refine sum_congr rfl fun b _ => ?_
    rw [ND.es_ijk_kl_ijl_get hC hO, ND.matT_get hM, ND.reshape_merge12 hP x i b (by simpa using hi)]
    congr 2
    exact sum_congr rfl fun t _ => by rw [cget _ _ _ (by simpa using hi), ND.matT_get hO, mul_comm]
  have q2 : ∀ x ∈ range a, ∀ i ∈ range n, ∑ b ∈ range r, (∑ t ∈ range l, O.matT.get [b, t]
        * Z.get [(x * n + i) / n, (x * n + i) % n, t] - (P.reshape [a * n, r]).matT.get [b, x * n + i]) ^ 2
      = ∑ b ∈ range r, ((ND.es_ijk_kl_ijl Z O).get [x, i, b] - P.get [x, i, b]) ^ 2 := by
    intro x _ i hi
    have hi : i < n := by simpa using hi
    refine sum_congr rfl fun b _ => ?_
    rw [ND.es_ijk_kl_ijl_get hZ hO, ND.matT_get hM, ND.reshape_merge12 hP x i b hi,
      (SvdStep.divmod x hi).1, (SvdStep.divmod x hi).2]
    congr 2
    exact sum_congr rfl fun t _ => by rw [ND.matT_get hO, mul_comm]
  have q3 : ∀ x ∈ range a, ∀ i ∈ range n, ∑ t ∈ range l,
      (env.lstsq O.matT (P.reshape [a * n, r]).matT).get [t, x * n + i] ^ 2
      = ∑ t ∈ range l, ((rightMulPinv env (P.reshape [a * n, r]) O).reshape [a, n, l]).get [x, i, t] ^ 2 := fun x _ i hi =>
    sum_congr rfl fun t _ => by rw [cget _ _ _ (by simpa using hi)]
  have q4 : ∀ x ∈ range a, ∀ i ∈ range n, ∑ t ∈ range l, Z.get [(x * n + i) / n, (x * n + i) % n, t] ^ 2
      = ∑ t ∈ range l, Z.get [x, i, t] ^ 2 := fun x _ i hi => by
    rw [(SvdStep.divmod x (mem_range.1 hi)).1, (SvdStep.divmod x (mem_range.1 hi)).2]
  have q5 : ∀ x ∈ range a, ∀ i ∈ range n, ∑ b ∈ range r, (P.reshape [a * n, r]).matT.get [b, x * n + i] ^ 2
      = ∑ b ∈ range r, P.get [x, i, b] ^ 2 := fun x _ i hi =>
    sum_congr rfl fun b _ => by rw [ND.matT_get hM, ND.reshape_merge12 hP x i b (by simpa using hi)]
  rw [sum_congr rfl fun x hx => sum_congr rfl (q1 x hx), sum_congr rfl fun x hx => sum_congr rfl (q2 x hx),
    sum_congr rfl fun x hx => sum_congr rfl (q3 x hx), sum_congr rfl fun x hx => sum_congr rfl (q4 x hx),
    sum_congr rfl fun x hx => sum_congr rfl (q5 x hx)] at key
  exact key

/-- The core of direction `left`. -/
theorem leftCore_approx {env : Env ℝ} {ε : ℝ} (hε : 0 ≤ ε) (hE : LstsqApproxContract env ε) {P O : ND ℝ} {a n r l : ℕ}
    (hP : P.shape = [l, n, a]) (hO : O.shape = [l, r]) :
    ∃ C, (leftMulPinv env O (P.reshape [l, n * a])).reshape? [r, n, a] = .ok C ∧ C.shape = [r, n, a] ∧
      ∀ Z : ND ℝ, Z.shape = [r, n, a] → frobD (ND.es_ij_jkl_ikl O C) P
        ≤ frobD (ND.es_ij_jkl_ikl O Z) P + ε * frobN O * (frobN C + frobN Z) + 2 * ε * frobN P := by
  have hM : (P.reshape [l, n * a]).shape = [l, n * a] := rfl
  have h0 := hE O (P.reshape [l, n * a]) l r (n * a) hO hM
  have h1 := h0.1
  refine ⟨_, reshape?_ok h1 (by simp), rfl, fun Z hZ => ?_⟩
  have key := lstsq_resid hε hO h0 fun t j => Z.get [t, j / a, j % a]
  have hC : ((leftMulPinv env O (P.reshape [l, n * a])).reshape [r, n, a]).shape = [r, n, a] := rfl
  have cget : ∀ c j b, b < a → ((leftMulPinv env O (P.reshape [l, n * a])).reshape [r, n, a]).get [c, j, b]
      = (env.lstsq O (P.reshape [l, n * a])).get [c, j * a + b] := by
    intro c j b hb
    rw [leftMulPinv, ND.reshape_split23 h1 c j b hb]
  rw [frobD_eq3 (ND.es_ij_jkl_ikl_shape hO hC), frobD_eq3 (ND.es_ij_jkl_ikl_shape hO hZ), frobN_eq3 hC, frobN_eq3 hZ,
    frobN_eq3 hP]
  have rot : ∀ (m : ℕ) (g : ℕ → ℕ → ℕ → ℝ), ∑ i ∈ range m, ∑ j ∈ range n, ∑ b ∈ range a, g i j b
      = ∑ j ∈ range n, ∑ b ∈ range a, ∑ i ∈ range m, g i j b := by
    intro m g
    rw [sum_comm]
    exact sum_congr rfl fun j _ => sum_comm
  rw [range_mul_sum, range_mul_sum, range_mul_sum, range_mul_sum, range_mul_sum] at key
  rw [rot, rot, rot, rot, rot]
  have q1 : ∀ x ∈ range n, ∀ b ∈ range a, ∑ i ∈ range l, (∑ t ∈ range r, O.get [i, t]
        * (env.lstsq O (P.reshape [l, n * a])).get [t, x * a + b] - (P.reshape [l, n * a]).get [i, x * a + b]) ^ 2
      = ∑ i ∈ range l, ((ND.es_ij_jkl_ikl O ((leftMulPinv env O (P.reshape [l, n * a])).reshape [r, n, a])).get [i, x, b]
        - P.get [i, x, b]) ^ 2 := by
    intro x _ b hb
    refine sum_congr rfl fun i _ => ?_
    rw [ND.es_ij_jkl_ikl_get hO hC, ND.reshape_merge23 hP i x b (by simpa using hb)]
    congr 2
    exact sum_congr rfl fun t _ => by rw [cget _ _ _ (by simpa using hb)]
  have q2 : ∀ x ∈ range n, ∀ b ∈ range a, ∑ i ∈ range l, (∑ t ∈ range r, O.get [i, t]
        * Z.get [t, (x * a + b) / a, (x * a + b) % a] - (P.reshape [l, n * a]).get [i, x * a + b]) ^ 2
      = ∑ i ∈ range l, ((ND.es_ij_jkl_ikl O Z).get [i, x, b] - P.get [i, x, b]) ^ 2 := by
    intro x _ b hb
    have hb : b < a := by simpa using hb
    refine sum_congr rfl fun i _ => ?_
    rw [ND.es_ij_jkl_ikl_get hO hZ, ND.reshape_merge23 hP i x b hb, (SvdStep.divmod x hb).1, (SvdStep.divmod x hb).2]
  have q3 : ∀ x ∈ range n, ∀ b ∈ range a, ∑ t ∈ range r, (env.lstsq O (P.reshape [l, n * a])).get [t, x * a + b] ^ 2
      = ∑ t ∈ range r, ((leftMulPinv env O (P.reshape [l, n * a])).reshape [r, n, a]).get [t, x, b] ^ 2 := fun x _ b hb =>
    sum_congr rfl fun t _ => by rw [cget _ _ _ (by simpa using hb)]
  have q4 : ∀ x ∈ range n, ∀ b ∈ range a, ∑ t ∈ range r, Z.get [t, (x * a + b) / a, (x * a + b) % a] ^ 2
      = ∑ t ∈ range r, Z.get [t, x, b] ^ 2 := fun x _ b hb => by
    rw [(SvdStep.divmod x (mem_range.1 hb)).1, (SvdStep.divmod x (mem_range.1 hb)).2]
  have q5 : ∀ x ∈ range n, ∀ b ∈ range a, ∑ i ∈ range l, (P.reshape [l, n * a]).get [i, x * a + b] ^ 2
      = ∑ i ∈ range l, P.get [i, x, b] ^ 2 := fun x _ b hb =>
    sum_congr rfl fun i _ => by rw [ND.reshape_merge23 hP i x b (by simpa using hb)]
  rw [sum_congr rfl fun x hx => sum_congr rfl (q1 x hx), sum_congr rfl fun x hx => sum_congr rfl (q2 x hx),
    sum_congr rfl fun x hx => sum_congr rfl (q3 x hx), sum_congr rfl fun x hx => sum_congr rfl (q4 x hx),
    sum_congr rfl fun x hx => sum_congr rfl (q5 x hx)] at key
  exact key

/-! ### Exact and computed sketches -/

theorem es_right_diff {C O O' : ND ℝ} {a n l r : ℕ} (hC : C.shape = [a, n, l]) (hO : O.shape = [l, r])
    (hO' : O'.shape = [l, r]) : frobD (ND.es_ijk_kl_ijl C O) (ND.es_ijk_kl_ijl C O') ≤ frobN C * frobD O O' := by
  rw [frobD_eq3 (ND.es_ijk_kl_ijl_shape hC hO), frobN_eq3 hC, ← Real.sqrt_sq (frobD_nonneg O O'), frobD_mat hO,
    ← Real.sqrt_mul (sum_nonneg fun _ _ => sum_nonneg fun _ _ => sum_nonneg fun _ _ => sq_nonneg _)]
  refine Real.sqrt_le_sqrt ?_
  rw [sum_mul]
  refine sum_le_sum fun i _ => ?_
  rw [sum_mul]
  refine sum_le_sum fun j _ => ?_
  rw [sum_comm, mul_sum]
  refine sum_le_sum fun b _ => ?_
  rw [ND.es_ijk_kl_ijl_get hC hO, ND.es_ijk_kl_ijl_get hC hO', ← sum_sub_distrib]
  simp only [← mul_sub]
  exact sum_mul_sq_le_sq_mul_sq _ _ _

theorem es_left_diff {C O O' : ND ℝ} {a n l r : ℕ} (hC : C.shape = [r, n, a]) (hO : O.shape = [l, r])
    (hO' : O'.shape = [l, r]) : frobD (ND.es_ij_jkl_ikl O C) (ND.es_ij_jkl_ikl O' C) ≤ frobN C * frobD O O' := by
  rw [frobD_eq3 (ND.es_ij_jkl_ikl_shape hO hC), frobN_eq3 hC, ← Real.sqrt_sq (frobD_nonneg O O'), frobD_mat hO,
    ← Real.sqrt_mul (sum_nonneg fun _ _ => sum_nonneg fun _ _ => sum_nonneg fun _ _ => sq_nonneg _), mul_comm]
  refine Real.sqrt_le_sqrt ?_
  rw [sum_mul]
  refine sum_le_sum fun i _ => ?_
  rw [sum_comm (s := range r), mul_sum]
  refine sum_le_sum fun j _ => ?_
  rw [sum_comm (s := range r), mul_sum]
  refine sum_le_sum fun b _ => ?_
  rw [ND.es_ij_jkl_ikl_get hO hC, ND.es_ij_jkl_ikl_get hO' hC, ← sum_sub_distrib]
  simp only [← sub_mul]
  exact sum_mul_sq_le_sq_mul_sq _ _ _

theorem right_resid {ε : ℝ} {C Z O O' P P' : ND ℝ} {a n l r : ℕ} (hC : C.shape = [a, n, l]) (hZ : Z.shape = [a, n, l])
    (hO : O.shape = [l, r]) (hO' : O'.shape = [l, r]) (hP : P.shape = [a, n, r]) (hP' : P'.shape = [a, n, r])
    (h : frobD (ND.es_ijk_kl_ijl C O') P'
      ≤ frobD (ND.es_ijk_kl_ijl Z O') P' + ε * frobN O' * (frobN C + frobN Z) + 2 * ε * frobN P') :
    frobD (ND.es_ijk_kl_ijl C O) P ≤ frobD (ND.es_ijk_kl_ijl Z O) P + solveErr ε C Z O O' P P' := by
  have sh : ∀ {C O : ND ℝ}, C.shape = [a, n, l] → O.shape = [l, r] → (ND.es_ijk_kl_ijl C O).shape = [a, n, r] :=
    fun hC hO => ND.es_ijk_kl_ijl_shape hC hO
  have h1 := frobD_triangle (A := ND.es_ijk_kl_ijl C O) (B := ND.es_ijk_kl_ijl C O') (C := P)
    (by rw [sh hC hO, sh hC hO'])
  have h2 := frobD_triangle (A := ND.es_ijk_kl_ijl C O') (B := P') (C := P) (by rw [sh hC hO', hP'])
  have h3 := frobD_triangle (A := ND.es_ijk_kl_ijl Z O') (B := ND.es_ijk_kl_ijl Z O) (C := P')
    (by rw [sh hZ hO, sh hZ hO'])
  have h4 := frobD_triangle (A := ND.es_ijk_kl_ijl Z O) (B := P) (C := P') (by rw [sh hZ hO, hP])
  have h5 := es_right_diff hC hO hO'
  have h6 := es_right_diff hZ hO' hO
  rw [frobD_symm (A := O') (by rw [hO, hO'])] at h6
  rw [frobD_symm (A := P') (by rw [hP, hP'])] at h2
  unfold solveErr
  nlinarith

theorem left_resid {ε : ℝ} {C Z O O' P P' : ND ℝ} {a n l r : ℕ} (hC : C.shape = [r, n, a]) (hZ : Z.shape = [r, n, a])
    (hO : O.shape = [l, r]) (hO' : O'.shape = [l, r]) (hP : P.shape = [l, n, a]) (hP' : P'.shape = [l, n, a])
    (h : frobD (ND.es_ij_jkl_ikl O' C) P'
      ≤ frobD (ND.es_ij_jkl_ikl O' Z) P' + ε * frobN O' * (frobN C + frobN Z) + 2 * ε * frobN P') :
    frobD (ND.es_ij_jkl_ikl O C) P ≤ frobD (ND.es_ij_jkl_ikl O Z) P + solveErr ε C Z O O' P P' := by
  have sh : ∀ {C O : ND ℝ}, C.shape = [r, n, a] → O.shape = [l, r] → (ND.es_ij_jkl_ikl O C).shape = [l, n, a] :=
    fun hC hO => ND.es_ij_jkl_ikl_shape hO hC
  have h1 := frobD_triangle (A := ND.es_ij_jkl_ikl O C) (B := ND.es_ij_jkl_ikl O' C) (C := P)
    (by rw [sh hC hO, sh hC hO'])
  have h2 := frobD_triangle (A := ND.es_ij_jkl_ikl O' C) (B := P') (C := P) (by rw [sh hC hO', hP'])
  have h3 := frobD_triangle (A := ND.es_ij_jkl_ikl O' Z) (B := ND.es_ij_jkl_ikl O Z) (C := P')
    (by rw [sh hZ hO, sh hZ hO'])
  have h4 := frobD_triangle (A := ND.es_ij_jkl_ikl O Z) (B := P) (C := P') (by rw [sh hZ hO, hP])
  have h5 := es_left_diff hC hO hO'
  have h6 := es_left_diff hZ hO' hO
  rw [frobD_symm (A := O') (by rw [hO, hO'])] at h6
  rw [frobD_symm (A := P') (by rw [hP, hP'])] at h2
  unfold solveErr
  nlinarith

/-! ### The sweep in direction `right` -/

theorem dL_add_le (r : ℕ) (sh : List ℕ) (U V : ℕ → List ℕ → ℝ) :
    dL r sh (fun x p => U x p + V x p) zL ≤ dL r sh U zL + dL r sh V zL := by
  unfold dL
  simp only [distL_eq, zL, sub_zero]
  exact sqrt_sum_add_le (range r ×ˢ idxSet sh) (fun z => U z.1 z.2) fun z => V z.1 z.2

theorem dL_four {r : ℕ} {sh : List ℕ} {F G F1 G1 H1 H2 : ℕ → List ℕ → ℝ}
    (h : ∀ x < r, ∀ p, InR sh p → F x p - G x p = (F1 x p - G1 x p) + (H1 x p - H2 x p)) :
    dL r sh F G ≤ dL r sh F1 G1 + dL r sh H1 zL + dL r sh H2 zL := by
  have h1 : dL r sh F G = dL r sh (fun x p => (F1 x p - G1 x p) + (H1 x p - H2 x p)) zL := by
    rw [← dL_sub]
    exact dL_congr h fun _ _ _ _ => rfl
  have h2 := dL_add_le r sh (fun x p => F1 x p - G1 x p) fun x p => H1 x p - H2 x p
  rw [dL_sub, dL_sub] at h2
  have h3 := dL_triangle r sh H1 zL H2
  rw [dL_symm r sh zL H2] at h3
  rw [h1]
  linarith

theorem mulU_lin {P : ND ℝ} {a n r : ℕ} (hP : P.shape = [a, n, r]) (rest : List ℕ) (U V : ℕ → List ℕ → ℝ) :
    dL a (n :: rest) (mulU P r U) (mulU P r V) ≤ frobN P * dL r rest U V := by
  have h := mulU_diff (P' := ND.zeros []) hP rest fun b q => U b q - V b q
  rw [frobD_zeros, dL_sub] at h
  have e0 : mulU (ND.zeros []) r (fun b q => U b q - V b q) = zL := by
    funext x p
    simp [mulU, zL, ND.zeros_get]
  rw [e0] at h
  refine le_trans (le_of_eq ?_) h
  rw [← dL_sub]
  refine dL_congr (fun x _ p _ => ?_) fun _ _ _ _ => rfl
  simp only [mulU, ← sum_sub_distrib, mul_sub]

theorem mulU_zero (P : ND ℝ) (r : ℕ) : mulU P r zL = zL := by
  funext x p
  simp [mulU, zL]

section
variable {sh : List ℕ} {f : List ℕ → ℝ} {L R : Mats ℝ}

theorem pcL_projU_closed {k : ℕ} (hk : k ≤ sh.length) (r : ℕ) (U : ℕ → List ℕ → ℝ) (a : ℕ) (q : List ℕ) :
    pcL sh (projU sh f R k r U) L k a q
      = ∑ b ∈ range r, (sumIdx (sh.take k) fun p => L k p a * pcR sh f R k p b) * U b q := by
  unfold pcL projU
  have e : ∀ p, InR (sh.take k) p → L k p a * ∑ b ∈ range r, pcR sh f R k ((p ++ q).take k) b * U b ((p ++ q).drop k)
      = ∑ b ∈ range r, L k p a * pcR sh f R k p b * U b q := by
    intro p hp
    have hpl : p.length = k := by rw [hp.length, List.length_take]; omega
    rw [List.take_left' hpl, List.drop_left' hpl, mul_sum]
    exact sum_congr rfl fun b _ => by ring
  rw [sumIdx_congr e, sumIdx_sum]
  exact sum_congr rfl fun b _ => by rw [sumIdx_mul]

/-- One core of direction `right`. -/
theorem right_step {mu l r a : ℕ} (hmu : mu < sh.length) {C P O : ND ℝ} (hC : C.shape = [a, sh.getD mu 0, l])
    (hO : O.shape = [l, r]) (hP : P.shape = [a, sh.getD mu 0, r])
    (hOg : ∀ c < l, ∀ b < r, O.get [c, b] = omegaSpec sh f L R mu c b)
    (hPg : ∀ x < a, ∀ j < sh.getD mu 0, ∀ b < r, P.get [x, j, b] = psiSpec sh f L R mu x j b)
    (B : ℕ → List ℕ → ℝ) (T : ℕ → List ℕ → ℝ) :
    dL a (sh.drop mu) (mulU C l T) (pcL sh f L mu)
      ≤ frobN C * dL l (sh.drop (mu + 1)) T (pcL sh f L (mu + 1))
        + (frobD (ND.es_ijk_kl_ijl C O) P * dL r (sh.drop (mu + 1)) B zL
          + frobN C * dL l (sh.drop (mu + 1)) (pcL sh (fun i => f i - projU sh f R (mu + 1) r B i) L (mu + 1)) zL
          + dL a (sh.drop mu) (pcL sh (fun i => f i - projU sh f R (mu + 1) r B i) L mu) zL) := by
  have e := drop_cons hmu
  have hE := ND.es_ijk_kl_ijl_shape hC hO
  have h1 := mulU_lin hC (sh.drop (mu + 1)) T (pcL sh f L (mu + 1))
  have h2 := mulU_diff (P' := P) hE (sh.drop (mu + 1)) B
  have h3 := mulU_lin hC (sh.drop (mu + 1))
    (pcL sh (fun i => f i - projU sh f R (mu + 1) r B i) L (mu + 1)) zL
  rw [mulU_zero] at h3
  rw [← e] at h1 h2 h3
  have h4 := dL_triangle a (sh.drop mu) (mulU C l T) (mulU C l (pcL sh f L (mu + 1))) (pcL sh f L mu)
  have h5 : dL a (sh.drop mu) (mulU C l (pcL sh f L (mu + 1))) (pcL sh f L mu)
      ≤ dL a (sh.drop mu) (mulU (ND.es_ijk_kl_ijl C O) r B) (mulU P r B)
        + dL a (sh.drop mu) (mulU C l (pcL sh (fun i => f i - projU sh f R (mu + 1) r B i) L (mu + 1))) zL
        + dL a (sh.drop mu) (pcL sh (fun i => f i - projU sh f R (mu + 1) r B i) L mu) zL := by
    refine dL_four fun x hx p hp => ?_
    rw [e] at hp
    match p, hp with
    | j :: q, hp =>
      have hj : j < sh.getD mu 0 := hp.1
      rw [pcL_sub, pcL_projU hmu]
      have m1 : mulU P r B x (j :: q) = ∑ b ∈ range r, psiSpec sh f L R mu x j b * B b q :=
        sum_congr rfl fun b hb => by rw [← hPg x hx j hj b (by simpa using hb)]; rfl
      have m2 : mulU C l (pcL sh (fun i => f i - projU sh f R (mu + 1) r B i) L (mu + 1)) x (j :: q)
          = mulU C l (pcL sh f L (mu + 1)) x (j :: q) - mulU (ND.es_ijk_kl_ijl C O) r B x (j :: q) := by
        have m3 : mulU (ND.es_ijk_kl_ijl C O) r B x (j :: q)
            = ∑ c ∈ range l, C.get [x, j, c] * pcL sh (projU sh f R (mu + 1) r B) L (mu + 1) c q := by
          show ∑ b ∈ range r, (ND.es_ijk_kl_ijl C O).get [x, j, b] * B b q = _
          have : ∀ b ∈ range r, (ND.es_ijk_kl_ijl C O).get [x, j, b] * B b q
              = ∑ c ∈ range l, C.get [x, j, c] * (omegaSpec sh f L R mu c b * B b q) := by
            intro b hb
            rw [ND.es_ijk_kl_ijl_get hC hO, sum_mul]
            exact sum_congr rfl fun c hc => by rw [hOg c (by simpa using hc) b (by simpa using hb), mul_assoc]
          rw [sum_congr rfl this, sum_comm]
          refine sum_congr rfl fun c _ => ?_
          rw [pcL_projU_closed (by omega), mul_sum]
          exact sum_congr rfl fun b _ => by rw [omegaSpec_right]
        rw [m3]
        show ∑ c ∈ range l, C.get [x, j, c] * _ = ∑ c ∈ range l, C.get [x, j, c] * _ - _
        rw [← sum_sub_distrib]
        exact sum_congr rfl fun c _ => by
          rw [pcL_sub, mul_sub]; rfl
      rw [m1, m2]
      ring
  linarith

end

/-! ### The sweep in direction `left` -/

/-- A core with its first index contracted. -/
noncomputable def mulV (C : ND ℝ) (l : ℕ) (V : ℕ → List ℕ → ℝ) (b : ℕ) (p : List ℕ) : ℝ :=
  ∑ c ∈ range l, V c p.dropLast * C.get [c, p.getLastD 0, b]

theorem mulV_snoc (C : ND ℝ) (l : ℕ) (V : ℕ → List ℕ → ℝ) (b : ℕ) (q : List ℕ) (j : ℕ) :
    mulV C l V b (q ++ [j]) = ∑ c ∈ range l, V c q * C.get [c, j, b] := by
  unfold mulV
  rw [List.dropLast_concat]
  refine sum_congr rfl fun c _ => ?_
  congr 3
  simp

theorem distL_snoc (r n : ℕ) (rest : List ℕ) (F G : ℕ → List ℕ → ℝ) :
    distL r (rest ++ [n]) F G
      = ∑ q ∈ idxSet rest, ∑ b ∈ range r, ∑ j ∈ range n, (F b (q ++ [j]) - G b (q ++ [j])) ^ 2 := by
  unfold distL
  rw [sum_comm (s := idxSet rest)]
  refine sum_congr rfl fun b _ => ?_
  rw [sumIdx_append, ← sumIdx_eq_sum (f := fun q => ∑ j ∈ range n, (F b (q ++ [j]) - G b (q ++ [j])) ^ 2)]
  rfl

theorem mulV_diff {P P' : ND ℝ} {l n r : ℕ} (hP : P.shape = [l, n, r]) (rest : List ℕ) (V : ℕ → List ℕ → ℝ) :
    dL r (rest ++ [n]) (mulV P l V) (mulV P' l V) ≤ frobD P P' * dL l rest V zL := by
  refine (Real.sqrt_le_left (mul_nonneg (frobD_nonneg _ _) (dL_nonneg _ _ _ _))).2 ?_
  rw [mul_pow, dL_sq, frob3 hP, distL_swap l, distL_snoc, mul_sum]
  refine sum_le_sum fun q _ => ?_
  have e : ∑ i ∈ range l, ∑ j ∈ range n, ∑ k ∈ range r, (P.get [i, j, k] - P'.get [i, j, k]) ^ 2
      = ∑ b ∈ range r, ∑ j ∈ range n, ∑ i ∈ range l, (P.get [i, j, b] - P'.get [i, j, b]) ^ 2 := by
    rw [sum_comm, sum_comm (s := range r)]
    exact sum_congr rfl fun j _ => sum_comm
  rw [e, sum_mul]
  refine sum_le_sum fun b _ => ?_
  rw [sum_mul]
  refine sum_le_sum fun j _ => ?_
  have e : mulV P l V b (q ++ [j]) - mulV P' l V b (q ++ [j])
      = ∑ c ∈ range l, (P.get [c, j, b] - P'.get [c, j, b]) * V c q := by
    rw [mulV_snoc, mulV_snoc, ← sum_sub_distrib]
    exact sum_congr rfl fun c _ => by ring
  rw [e]
  simp only [zL, sub_zero]
  exact sum_mul_sq_le_sq_mul_sq _ _ _

theorem mulV_lin {P : ND ℝ} {l n r : ℕ} (hP : P.shape = [l, n, r]) (rest : List ℕ) (U V : ℕ → List ℕ → ℝ) :
    dL r (rest ++ [n]) (mulV P l U) (mulV P l V) ≤ frobN P * dL l rest U V := by
  have h := mulV_diff (P' := ND.zeros []) hP rest fun b q => U b q - V b q
  rw [frobD_zeros, dL_sub] at h
  have e0 : mulV (ND.zeros []) l (fun b q => U b q - V b q) = zL := by
    funext x p
    simp [mulV, zL, ND.zeros_get]
  rw [e0] at h
  refine le_trans (le_of_eq ?_) h
  rw [← dL_sub]
  refine dL_congr (fun x _ p _ => ?_) fun _ _ _ _ => rfl
  simp only [mulV, ← sum_sub_distrib, sub_mul]

theorem mulV_zero (P : ND ℝ) (l : ℕ) : mulV P l zL = zL := by
  funext x p
  simp [mulV, zL]

/-- The right contraction with the column index first. -/
noncomputable def swapR (sh : List ℕ) (f : List ℕ → ℝ) (R : Mats ℝ) (k b : ℕ) (p : List ℕ) : ℝ := pcR sh f R k p b

section
variable {sh : List ℕ} {f : List ℕ → ℝ} {L R : Mats ℝ}

/-- `W (L A_k)` as a tensor. -/
noncomputable def projW (sh : List ℕ) (f : List ℕ → ℝ) (L : Mats ℝ) (k l : ℕ) (W : List ℕ → ℕ → ℝ) (i : List ℕ) : ℝ :=
  ∑ a ∈ range l, W (i.take k) a * pcL sh f L k a (i.drop k)

theorem pcR_sub (f g : List ℕ → ℝ) (R : Mats ℝ) (k : ℕ) (p : List ℕ) (b : ℕ) :
    pcR sh (fun i => f i - g i) R k p b = pcR sh f R k p b - pcR sh g R k p b := by
  unfold pcR
  rw [← sumIdx_sub]
  exact sumIdx_congr fun q _ => by ring

theorem pcR_projW {mu : ℕ} (hmu : mu < sh.length) (l : ℕ) (W : List ℕ → ℕ → ℝ) (p : List ℕ) (hp : InR (sh.take (mu + 1)) p)
    (c : ℕ) : pcR sh (projW sh f L (mu + 1) l W) R (mu + 1) p c = ∑ a ∈ range l, W p a * omegaSpec sh f L R mu a c := by
  unfold pcR projW
  have hpl : p.length = mu + 1 := by rw [hp.length, List.length_take]; omega
  have e : ∀ q, InR (sh.drop (mu + 1)) q → (∑ a ∈ range l, W ((p ++ q).take (mu + 1)) a
        * pcL sh f L (mu + 1) a ((p ++ q).drop (mu + 1))) * R (mu + 1) q c
      = ∑ a ∈ range l, W p a * (pcL sh f L (mu + 1) a q * R (mu + 1) q c) := by
    intro q _
    rw [List.take_left' hpl, List.drop_left' hpl, sum_mul]
    exact sum_congr rfl fun a _ => by ring
  rw [sumIdx_congr e, sumIdx_sum]
  exact sum_congr rfl fun a _ => by rw [omegaSpec_left, mul_sumIdx]

theorem pcR_projW_open {mu : ℕ} (hmu : mu + 1 < sh.length) (l : ℕ) (W : List ℕ → ℕ → ℝ) (p : List ℕ)
    (hp : InR (sh.take (mu + 1)) p) (j b : ℕ) :
    pcR sh (projW sh f L (mu + 1) l W) R (mu + 2) (p ++ [j]) b = ∑ a ∈ range l, W p a * psiSpec sh f L R (mu + 1) a j b := by
  unfold pcR projW
  have hpl : p.length = mu + 1 := by rw [hp.length, List.length_take]; omega
  have e : ∀ q, InR (sh.drop (mu + 2)) q → (∑ a ∈ range l, W ((p ++ [j] ++ q).take (mu + 1)) a
        * pcL sh f L (mu + 1) a ((p ++ [j] ++ q).drop (mu + 1))) * R (mu + 2) q b
      = ∑ a ∈ range l, W p a * (pcL sh f L (mu + 1) a (j :: q) * R (mu + 2) q b) := by
    intro q _
    rw [List.append_assoc, List.take_left' hpl, List.drop_left' hpl, sum_mul]
    exact sum_congr rfl fun a _ => by rw [List.singleton_append]; ring
  rw [sumIdx_congr e, sumIdx_sum]
  exact sum_congr rfl fun a _ => by rw [psiSpec_left, mul_sumIdx]

/-- One core of direction `left`. -/
theorem left_step {mu l r a : ℕ} (hmu : mu + 1 < sh.length) {C P O : ND ℝ} (hC : C.shape = [r, sh.getD (mu + 1) 0, a])
    (hO : O.shape = [l, r]) (hP : P.shape = [l, sh.getD (mu + 1) 0, a])
    (hOg : ∀ c < l, ∀ b < r, O.get [c, b] = omegaSpec sh f L R mu c b)
    (hPg : ∀ x < l, ∀ j < sh.getD (mu + 1) 0, ∀ b < a, P.get [x, j, b] = psiSpec sh f L R (mu + 1) x j b)
    (W : List ℕ → ℕ → ℝ) (T : ℕ → List ℕ → ℝ) :
    dL a (sh.take (mu + 2)) (mulV C r T) (swapR sh f R (mu + 2))
      ≤ frobN C * dL r (sh.take (mu + 1)) T (swapR sh f R (mu + 1))
        + (frobD (ND.es_ij_jkl_ikl O C) P * dL l (sh.take (mu + 1)) (fun c p => W p c) zL
          + frobN C * dL r (sh.take (mu + 1)) (swapR sh (fun i => f i - projW sh f L (mu + 1) l W i) R (mu + 1)) zL
          + dL a (sh.take (mu + 2)) (swapR sh (fun i => f i - projW sh f L (mu + 1) l W i) R (mu + 2)) zL) := by
  have e : sh.take (mu + 2) = sh.take (mu + 1) ++ [sh.getD (mu + 1) 0] := take_succ_getD hmu 0
  have hE := ND.es_ij_jkl_ikl_shape hO hC
  have h1 := mulV_lin hC (sh.take (mu + 1)) T (swapR sh f R (mu + 1))
  have h2 := mulV_diff (P' := P) hE (sh.take (mu + 1)) fun c p => W p c
  have h3 := mulV_lin hC (sh.take (mu + 1))
    (swapR sh (fun i => f i - projW sh f L (mu + 1) l W i) R (mu + 1)) zL
  rw [mulV_zero] at h3
  rw [← e] at h1 h2 h3
  have h4 := dL_triangle a (sh.take (mu + 2)) (mulV C r T) (mulV C r (swapR sh f R (mu + 1))) (swapR sh f R (mu + 2))
  have h5 : dL a (sh.take (mu + 2)) (mulV C r (swapR sh f R (mu + 1))) (swapR sh f R (mu + 2))
      ≤ dL a (sh.take (mu + 2)) (mulV (ND.es_ij_jkl_ikl O C) l fun c p => W p c) (mulV P l fun c p => W p c)
        + dL a (sh.take (mu + 2)) (mulV C r (swapR sh (fun i => f i - projW sh f L (mu + 1) l W i) R (mu + 1))) zL
        + dL a (sh.take (mu + 2)) (swapR sh (fun i => f i - projW sh f L (mu + 1) l W i) R (mu + 2)) zL := by
    refine dL_four fun x hx p' hp' => ?_
    obtain ⟨p, j, rfl, hp, hj⟩ : ∃ p j, p' = p ++ [j] ∧ InR (sh.take (mu + 1)) p ∧ j < sh.getD (mu + 1) 0 := by
      rw [e] at hp'
      refine ⟨p'.take (mu + 1), p'.getD (mu + 1) 0, ?_, ?_, ?_⟩
      · have hl : p'.length = mu + 2 := by
          rw [hp'.length, List.length_append, List.length_take, List.length_singleton]; omega
        have := take_succ_getD (l := p') (k := mu + 1) (by omega) 0
        rw [← this, List.take_of_length_le (by omega)]
      · have := hp'.take (mu + 1)
        rwa [List.take_left' (by rw [List.length_take]; omega)] at this
      · have := hp'.drop (mu + 1)
        rw [List.drop_left' (by rw [List.length_take]; omega)] at this
        have hl : p'.length = mu + 2 := by
          rw [hp'.length, List.length_append, List.length_take, List.length_singleton]; omega
        rw [drop_eq_getD_cons (by omega) 0] at this
        exact this.1
    unfold swapR
    rw [pcR_sub, pcR_projW_open hmu l W p hp]
    have m1 : mulV P l (fun c p => W p c) x (p ++ [j]) = ∑ c ∈ range l, W p c * psiSpec sh f L R (mu + 1) c j x := by
      rw [mulV_snoc]
      exact sum_congr rfl fun c hc => by rw [← hPg c (by simpa using hc) j hj x hx]
    have m2 : mulV C r (fun b p => pcR sh (fun i => f i - projW sh f L (mu + 1) l W i) R (mu + 1) p b) x (p ++ [j])
        = mulV C r (fun b p => pcR sh f R (mu + 1) p b) x (p ++ [j])
          - mulV (ND.es_ij_jkl_ikl O C) l (fun c p => W p c) x (p ++ [j]) := by
      have m3 : mulV (ND.es_ij_jkl_ikl O C) l (fun c p => W p c) x (p ++ [j])
          = ∑ b ∈ range r, pcR sh (projW sh f L (mu + 1) l W) R (mu + 1) p b * C.get [b, j, x] := by
        rw [mulV_snoc]
        have : ∀ c ∈ range l, W p c * (ND.es_ij_jkl_ikl O C).get [c, j, x]
            = ∑ b ∈ range r, W p c * omegaSpec sh f L R mu c b * C.get [b, j, x] := by
          intro c hc
          rw [ND.es_ij_jkl_ikl_get hO hC, mul_sum]
          exact sum_congr rfl fun b hb => by rw [hOg c (by simpa using hc) b (by simpa using hb), mul_assoc]
        rw [sum_congr rfl this, sum_comm]
        refine sum_congr rfl fun b _ => ?_
        rw [pcR_projW (by omega) l W p hp, sum_mul]
      rw [m3, mulV_snoc, mulV_snoc, ← sum_sub_distrib]
      exact sum_congr rfl fun b _ => by rw [pcR_sub, sub_mul]
    have m2' := m2
    rw [m1]
    linarith
  linarith

end

theorem unroll {c t e : ℕ → ℝ} (hc : ∀ k, 0 ≤ c k) : ∀ N, (∀ mu < N, e mu ≤ c mu * e (mu + 1) + t mu) →
    e 0 ≤ ∑ mu ∈ range N, (∏ nu ∈ range mu, c nu) * t mu + (∏ nu ∈ range N, c nu) * e N
  | 0, _ => by simp
  | N + 1, h => by
    have ih := unroll hc N fun mu hmu => h mu (by omega)
    have h1 := mul_le_mul_of_nonneg_left (h N (by omega)) (prod_nonneg fun nu (_ : nu ∈ range N) => hc nu)
    rw [sum_range_succ, prod_range_succ]
    linarith

theorem unroll_left {c t e : ℕ → ℝ} (hc : ∀ k, 0 ≤ c k) : ∀ N, (∀ mu < N, e (mu + 1) ≤ c mu * e mu + t mu) →
    e N ≤ ∑ mu ∈ range N, (∏ nu ∈ Ico (mu + 1) N, c nu) * t mu + (∏ nu ∈ Ico 0 N, c nu) * e 0
  | 0, _ => by simp
  | N + 1, h => by
    have ih := unroll_left hc N fun mu hmu => h mu (by omega)
    have h1 := h N (by omega)
    have h2 := mul_le_mul_of_nonneg_left ih (hc N)
    rw [sum_range_succ, Ico_self, prod_empty, one_mul, prod_Ico_succ_top (Nat.zero_le N)]
    have e1 : ∑ mu ∈ range N, (∏ nu ∈ Ico (mu + 1) (N + 1), c nu) * t mu
        = c N * ∑ mu ∈ range N, (∏ nu ∈ Ico (mu + 1) N, c nu) * t mu := by
      rw [mul_sum]
      refine sum_congr rfl fun mu hmu => ?_
      rw [prod_Ico_succ_top (by simpa using hmu)]
      ring
    rw [e1]
    linarith

/-! ### The two directions -/

theorem coeffNorm_dL (sh : List ℕ) (k r : ℕ) (B : ℕ → List ℕ → ℝ) : coeffNorm sh k r B = dL r (sh.drop k) B zL := by
  unfold coeffNorm dL distL zL
  simp only [sub_zero]

theorem rowCoeffNorm_dL (sh : List ℕ) (k l : ℕ) (B : List ℕ → ℕ → ℝ) :
    rowCoeffNorm sh k l B = dL l (sh.take k) (fun c p => B p c) zL := by
  unfold rowCoeffNorm dL
  rw [distL_swap, sumIdx_eq_sum]
  simp only [zL, sub_zero]

theorem leftNorm_dL {A D : ND ℝ} {g : List ℕ → ℝ} (hD : D = ND.ofFn A.shape g) (L : Mats ℝ) (k l : ℕ) :
    leftNorm D L k l = dL l (A.shape.drop k) (pcL A.shape g L k) zL := by
  have hs : D.shape = A.shape := by rw [hD]; rfl
  unfold leftNorm dL distL
  congr 1
  refine sum_congr rfl fun a _ => ?_
  rw [hs]
  refine sumIdx_congr fun q hq => ?_
  simp only [zL, sub_zero]
  congr 1
  unfold leftSketch pcL
  rw [hs]
  refine sumIdx_congr fun p hp => ?_
  rw [hD, ND.ofFn_get (by
    have := hp.append hq
    rwa [List.take_append_drop] at this)]

theorem sketchedNorm_dL {A D : ND ℝ} {g : List ℕ → ℝ} (hD : D = ND.ofFn A.shape g) (R : Mats ℝ) (k r : ℕ) :
    sketchedNorm D R k r = dL r (A.shape.take k) (swapR A.shape g R k) zL := by
  have hs : D.shape = A.shape := by rw [hD]; rfl
  unfold sketchedNorm dL
  rw [distL_swap, hs, sumIdx_eq_sum]
  congr 1
  refine sum_congr rfl fun p hp => sum_congr rfl fun b _ => ?_
  simp only [zL, sub_zero]
  congr 1
  unfold rightSketch swapR pcR
  rw [hs]
  refine sumIdx_congr fun q hq => ?_
  rw [hD, ND.ofFn_get (by
    have := (mem_idxSet.1 hp).append hq
    rwa [List.take_append_drop] at this)]

theorem train_dist {A : ND ℝ} {Y : TT ℝ} (hY : Y.Valid) (hs : Y.shape = A.shape) :
    frobD A Y.toNumpy = √ (sumIdx A.shape fun i => (ttEntry Y i - A.get i) ^ 2) := by
  unfold frobD distSq
  congr 1
  refine sumIdx_congr fun i hi => ?_
  rw [TT.toNumpy_get hY]
  ring

/-- Direction `right`. -/
theorem right_error {env : Env ℝ} {ε : ℝ} (hε : 0 ≤ ε) (hE : LstsqApproxContract env ε) {A : ND ℝ} {L R : Mats ℝ}
    {lr rr : List ℕ} {s : Container ℝ} (hd : 1 ≤ A.shape.length) (hl : lr.length = A.shape.length - 1)
    (hr : rr.length = A.shape.length - 1) (hs : s.HasShape A.shape lr rr) (hL : ∀ a, L 0 [] a = 1)
    (hR : ∀ b, R A.shape.length [] b = 1) :
    ∃ cs, assembleRight env s = .ok cs ∧ (TT.mk cs).Valid ∧ (TT.mk cs).shape = A.shape ∧ (TT.mk cs).rank = lr ∧
      ∀ (B : ℕ → ℕ → List ℕ → ℝ) (Z : ℕ → ND ℝ),
        (∀ mu < A.shape.length - 1, (Z mu).shape = [(1 :: lr).getD mu 0, A.shape.getD mu 0, lr.getD mu 0]) →
        frobD A (TT.mk cs).toNumpy
          ≤ rightBound ε A L R lr rr s (sketchOf A.shape A.get L R lr rr) cs B Z := by
  obtain ⟨cs, h1, h2, h3, h4, h5⟩ := assembleRight_each
    (q := fun a n r l C P O => ∀ Z : ND ℝ, Z.shape = [a, n, l] → frobD (ND.es_ijk_kl_ijl C O) P
      ≤ frobD (ND.es_ijk_kl_ijl Z O) P + ε * frobN O * (frobN C + frobN Z) + 2 * ε * frobN P)
    (fun _ _ _ _ _ _ hP hO => rightCore_approx hε hE hP hO) hd hl hr hs
  obtain ⟨w1, w2, w3⟩ := Props.cores_tt h3 (by omega) h2 hl
  refine ⟨cs, h1, w1, w2, w3, fun B Z hZ => ?_⟩
  have hw := sketchOf_hasShape A.shape A.get L R lr rr
  obtain ⟨t, ht⟩ : ∃ t, t = sketchOf A.shape A.get L R lr rr := ⟨_, rfl⟩
  rw [← ht] at hw ⊢
  let e : ℕ → ℝ := fun mu => dL ((1 :: lr ++ [1]).getD mu 0) (A.shape.drop mu) (valL (cs.drop mu)) (pcL A.shape A.get L mu)
  have step : ∀ mu < A.shape.length - 1, e mu ≤ frobN (core cs mu) * e (mu + 1)
      + ((frobD (ND.es_ijk_kl_ijl (Z mu) (core t.omega mu)) (core t.psi mu)
          + solveErr ε (core cs mu) (Z mu) (core t.omega mu) (core s.omega mu) (core t.psi mu) (core s.psi mu))
        * coeffNorm A.shape (mu + 1) (rr.getD mu 0) (B mu)
      + frobN (core cs mu) * leftNorm (colRest A R (mu + 1) (rr.getD mu 0) (B mu)) L (mu + 1) (lr.getD mu 0)
      + leftNorm (colRest A R (mu + 1) (rr.getD mu 0) (B mu)) L mu ((1 :: lr).getD mu 0)) := by
    intro mu hmu
    have hC := h3 mu (by omega)
    beta_reduce at hC
    rw [aug_left (by omega), aug_right (by omega)] at hC
    have hOs := hs.omega mu hmu
    have hPs := hs.psi mu (by omega)
    rw [List.getD_append _ _ _ _ (by omega)] at hPs
    have hOt := hw.omega mu hmu
    have hPt := hw.psi mu (by omega)
    rw [List.getD_append _ _ _ _ (by omega)] at hPt
    have hres := right_resid hC (hZ mu hmu) hOt hOs hPt hPs (h5 mu hmu (Z mu) (hZ mu hmu))
    have hst := right_step (f := A.get) (L := L) (R := R) (mu := mu) (by omega) hC hOt hPt
      (fun c hc b hb => by rw [ht]; exact sketchOf_omega_get hmu hc hb)
      (fun x hx j hj b hb => by
        rw [ht]
        exact sketchOf_psi_get (by omega) hx hj (by rw [List.getD_append _ _ _ _ (by omega)]; exact hb))
      (B mu) (valL (cs.drop (mu + 1)))
    have e1 : e mu = dL ((1 :: lr).getD mu 0) (A.shape.drop mu)
        (mulU (cs.getD mu (ND.zeros [])) (lr.getD mu 0) (valL (cs.drop (mu + 1)))) (pcL A.shape A.get L mu) := by
      show dL ((1 :: lr ++ [1]).getD mu 0) _ _ _ = _
      rw [aug_left (by omega)]
      refine dL_congr (fun x _ p hp => ?_) fun _ _ _ _ => rfl
      rw [drop_cons (by omega)] at hp
      rw [drop_eq_getD_cons (by omega) (ND.zeros [])]
      match p, hp with
      | j :: q, _ =>
        show ttVal _ (j :: q) x 0 = _
        rw [ttVal_cons hC]
        rfl
    have e2 : e (mu + 1) = dL (lr.getD mu 0) (A.shape.drop (mu + 1)) (valL (cs.drop (mu + 1)))
        (pcL A.shape A.get L (mu + 1)) := by
      show dL ((1 :: lr ++ [1]).getD (mu + 1) 0) _ _ _ = _
      rw [aug_right (by omega)]
    rw [e1, e2, coeffNorm_dL, leftNorm_dL (A := A) (D := colRest A R (mu + 1) (rr.getD mu 0) (B mu)) rfl,
      leftNorm_dL (A := A) (D := colRest A R (mu + 1) (rr.getD mu 0) (B mu)) rfl]
    refine hst.trans ?_
    have := mul_le_mul_of_nonneg_right hres (dL_nonneg (rr.getD mu 0) (A.shape.drop (mu + 1)) (B mu) zL)
    have hh : (fun i => A.get i - projU A.shape A.get R (mu + 1) (rr.getD mu 0) (B mu) i)
        = fun i => A.get i - ∑ b ∈ range (rr.getD mu 0), rightSketch A R (mu + 1) (i.take (mu + 1)) b
          * B mu b (i.drop (mu + 1)) := rfl
    rw [← hh]
    unfold core
    linarith
  have fin := unroll (fun k => frobN_nonneg (core cs k)) (A.shape.length - 1) step
  have e0 : frobD A (TT.mk cs).toNumpy = e 0 := by
    rw [train_dist w1 w2]
    show _ = √ (∑ x ∈ range 1, _)
    rw [sum_range_one]
    congr 1
    refine sumIdx_congr fun i _ => ?_
    congr 2
    simp [pcL, sumIdx, hL]
  have eN : e (A.shape.length - 1) = frobD (core t.psi (A.shape.length - 1)) (core s.psi (A.shape.length - 1)) := by
    have hPt := hw.psi (A.shape.length - 1) (by omega)
    have hPs := hs.psi (A.shape.length - 1) (by omega)
    have hlast : (rr ++ [1]).getD (A.shape.length - 1) 0 = 1 := by
      rw [List.getD_append_right _ _ _ _ (by omega), hr, Nat.sub_self]; rfl
    rw [hlast] at hPt hPs
    have hdr : A.shape.drop (A.shape.length - 1) = [A.shape.getD (A.shape.length - 1) 0] := by
      rw [drop_cons (by omega), List.drop_eq_nil_of_le (by omega)]
    rw [frobD_symm (A := core t.psi _) (by unfold core; rw [hPt, hPs])]
    have hPs' : (core s.psi (A.shape.length - 1)).shape = _ := hPs
    rw [frobD_eq3 hPs']
    show √ (∑ x ∈ range ((1 :: lr ++ [1]).getD (A.shape.length - 1) 0), sumIdx (A.shape.drop (A.shape.length - 1)) _) = _
    rw [aug_left (by omega), hdr]
    congr 1
    refine sum_congr rfl fun x hx => ?_
    have hx : x < (1 :: lr).getD (A.shape.length - 1) 0 := by simpa using hx
    show ∑ j ∈ range (A.shape.getD (A.shape.length - 1) 0), _ = _
    refine sum_congr rfl fun j hj => ?_
    have hj : j < A.shape.getD (A.shape.length - 1) 0 := by simpa using hj
    rw [sum_range_one]
    show (valL (cs.drop (A.shape.length - 1)) x [j] - pcL A.shape A.get L (A.shape.length - 1) x [j]) ^ 2 = _
    have q1 : valL (cs.drop (A.shape.length - 1)) x [j] = (core s.psi (A.shape.length - 1)).get [x, j, 0] := by
      rw [drop_eq_getD_cons (by omega) (ND.zeros []), List.drop_eq_nil_of_le (by omega), h4]
      show ttVal _ [j] x 0 = _
      rw [ttVal_cons hPs, sum_range_one]
      show (core s.psi (A.shape.length - 1)).get [x, j, 0] * 1 = _
      rw [mul_one]
    have q2 : pcL A.shape A.get L (A.shape.length - 1) x [j] = (core t.psi (A.shape.length - 1)).get [x, j, 0] := by
      unfold core
      rw [ht, sketchOf_psi_get (by omega) hx hj (by rw [hlast]; exact Nat.one_pos), psiSpec_last hd hR]
    rw [q1, q2]
  rw [e0]
  refine fin.trans ?_
  unfold rightBound
  rw [eN]

/-- Direction `left`. -/
theorem left_error {env : Env ℝ} {ε : ℝ} (hε : 0 ≤ ε) (hE : LstsqApproxContract env ε) {A : ND ℝ} {L R : Mats ℝ}
    {lr rr : List ℕ} {s : Container ℝ} (hd : 1 ≤ A.shape.length)
    (hr : rr.length = A.shape.length - 1) (hs : s.HasShape A.shape lr rr) (hL : ∀ a, L 0 [] a = 1)
    (hR : ∀ b, R A.shape.length [] b = 1) :
    ∃ cs, assembleLeft env s = .ok cs ∧ (TT.mk cs).Valid ∧ (TT.mk cs).shape = A.shape ∧ (TT.mk cs).rank = rr ∧
      ∀ (B : ℕ → List ℕ → ℕ → ℝ) (Z : ℕ → ND ℝ),
        (∀ mu < A.shape.length - 1,
          (Z mu).shape = [rr.getD mu 0, A.shape.getD (mu + 1) 0, (rr ++ [1]).getD (mu + 1) 0]) →
        frobD A (TT.mk cs).toNumpy
          ≤ leftBound ε A L R lr rr s (sketchOf A.shape A.get L R lr rr) cs B Z := by
  obtain ⟨cs, h1, h2, h3, h4, h5⟩ := assembleLeft_each
    (q := fun a n r l C P O => ∀ Z : ND ℝ, Z.shape = [r, n, a] → frobD (ND.es_ij_jkl_ikl O C) P
      ≤ frobD (ND.es_ij_jkl_ikl O Z) P + ε * frobN O * (frobN C + frobN Z) + 2 * ε * frobN P)
    (fun _ _ _ _ _ _ hP hO => leftCore_approx hε hE hP hO) hd hr hs
  obtain ⟨w1, w2, w3⟩ := Props.cores_tt h3 (by omega) h2 hr
  refine ⟨cs, h1, w1, w2, w3, fun B Z hZ => ?_⟩
  have hw := sketchOf_hasShape A.shape A.get L R lr rr
  obtain ⟨t, ht⟩ : ∃ t, t = sketchOf A.shape A.get L R lr rr := ⟨_, rfl⟩
  rw [← ht] at hw ⊢
  let T : ℕ → ℕ → List ℕ → ℝ := fun k b p => ttVal (cs.take k) p 0 b
  let e : ℕ → ℝ := fun mu => dL ((rr ++ [1]).getD mu 0) (A.shape.take (mu + 1)) (T (mu + 1)) (swapR A.shape A.get R (mu + 1))
  have step : ∀ mu < A.shape.length - 1, e (mu + 1) ≤ frobN (core cs (mu + 1)) * e mu
      + ((frobD (ND.es_ij_jkl_ikl (core t.omega mu) (Z mu)) (core t.psi (mu + 1))
          + solveErr ε (core cs (mu + 1)) (Z mu) (core t.omega mu) (core s.omega mu) (core t.psi (mu + 1))
              (core s.psi (mu + 1)))
        * rowCoeffNorm A.shape (mu + 1) (lr.getD mu 0) (B mu)
      + frobN (core cs (mu + 1)) * sketchedNorm (rowRest A L (mu + 1) (lr.getD mu 0) (B mu)) R (mu + 1) (rr.getD mu 0)
      + sketchedNorm (rowRest A L (mu + 1) (lr.getD mu 0) (B mu)) R (mu + 2) ((rr ++ [1]).getD (mu + 1) 0)) := by
    intro mu hmu
    have hC := h3 (mu + 1) (by omega)
    beta_reduce at hC
    rw [aug_right (by omega), aug_right'] at hC
    have hOs := hs.omega mu hmu
    have hPs := hs.psi (mu + 1) (by omega)
    rw [List.getD_cons_succ] at hPs
    have hOt := hw.omega mu hmu
    have hPt := hw.psi (mu + 1) (by omega)
    rw [List.getD_cons_succ] at hPt
    have hres := left_resid hC (hZ mu hmu) hOt hOs hPt hPs (h5 mu hmu (Z mu) (hZ mu hmu))
    have hst := left_step (f := A.get) (L := L) (R := R) (mu := mu) (by omega) hC hOt hPt
      (fun c hc b hb => by rw [ht]; exact sketchOf_omega_get hmu hc hb)
      (fun x hx j hj b hb => by
        rw [ht]
        exact sketchOf_psi_get (by omega) (by rw [List.getD_cons_succ]; exact hx) hj hb)
      (B mu) (T (mu + 1))
    have e1 : e (mu + 1) = dL ((rr ++ [1]).getD (mu + 1) 0) (A.shape.take (mu + 2))
        (mulV (cs.getD (mu + 1) (ND.zeros [])) (rr.getD mu 0) (T (mu + 1))) (swapR A.shape A.get R (mu + 2)) := by
      refine dL_congr (fun x _ p hp => ?_) fun _ _ _ _ => rfl
      have hl : p.length = mu + 2 := by rw [hp.length, List.length_take]; omega
      obtain ⟨p', j, rfl⟩ : ∃ p' j, p = p' ++ [j] :=
        ⟨p.dropLast, p.getLast (by intro h; simp [h] at hl), (List.dropLast_append_getLast _).symm⟩
      have hl' : p'.length = mu + 1 := by simpa using hl
      rw [mulV_snoc]
      have := h3.val_succ rfl (mu + 1) (by omega) p' hl' j x
      beta_reduce at this
      rw [aug_right (by omega)] at this
      exact this
    have e2 : e mu = dL (rr.getD mu 0) (A.shape.take (mu + 1)) (T (mu + 1)) (swapR A.shape A.get R (mu + 1)) := by
      show dL ((rr ++ [1]).getD mu 0) _ _ _ = _
      rw [List.getD_append _ _ _ _ (by omega)]
    rw [e1, e2, rowCoeffNorm_dL, sketchedNorm_dL (A := A) (D := rowRest A L (mu + 1) (lr.getD mu 0) (B mu)) rfl,
      sketchedNorm_dL (A := A) (D := rowRest A L (mu + 1) (lr.getD mu 0) (B mu)) rfl]
    refine hst.trans ?_
    have := mul_le_mul_of_nonneg_right hres
      (dL_nonneg (lr.getD mu 0) (A.shape.take (mu + 1)) (fun c p => B mu p c) zL)
    have hh : (fun i => A.get i - projW A.shape A.get L (mu + 1) (lr.getD mu 0) (B mu) i)
        = fun i => A.get i - ∑ a ∈ range (lr.getD mu 0), B mu (i.take (mu + 1)) a
          * leftSketch A L (mu + 1) a (i.drop (mu + 1)) := rfl
    rw [← hh]
    unfold core
    linarith
  have fin := unroll_left (fun k => frobN_nonneg (core cs (k + 1))) (A.shape.length - 1) step
  have eN : frobD A (TT.mk cs).toNumpy = e (A.shape.length - 1) := by
    have hlast : (rr ++ [1]).getD (A.shape.length - 1) 0 = 1 := by
      rw [List.getD_append_right _ _ _ _ (by omega), hr, Nat.sub_self]; rfl
    rw [train_dist w1 w2]
    show _ = √ (∑ x ∈ range ((rr ++ [1]).getD (A.shape.length - 1) 0), sumIdx (A.shape.take (A.shape.length - 1 + 1)) _)
    rw [hlast, sum_range_one, Nat.sub_add_cancel hd, List.take_length]
    congr 1
    refine sumIdx_congr fun i _ => ?_
    show _ = (ttVal (cs.take A.shape.length) i 0 0 - swapR A.shape A.get R A.shape.length 0 i) ^ 2
    rw [← h2, List.take_length, h2]
    congr 2
    simp [swapR, pcR, sumIdx, hR]
  have e0 : e 0 = frobD (core t.psi 0) (core s.psi 0) := by
    have hPt := hw.psi 0 (by omega)
    have hPs := hs.psi 0 (by omega)
    rw [List.getD_cons_zero] at hPt hPs
    have hta : A.shape.take 1 = [A.shape.getD 0 0] := take_two_getD hd 0
    rw [frobD_symm (A := core t.psi _) (by unfold core; rw [hPt, hPs])]
    have hPs' : (core s.psi 0).shape = _ := hPs
    rw [frobD_eq3 hPs', sum_range_one]
    show √ (∑ x ∈ range ((rr ++ [1]).getD 0 0), sumIdx (A.shape.take 1) _) = _
    rw [hta, sum_comm]
    congr 1
    refine sum_congr rfl fun x hx => ?_
    have hx : x < (rr ++ [1]).getD 0 0 := by simpa using hx
    show ∑ j ∈ range (A.shape.getD 0 0), _ = _
    refine sum_congr rfl fun j hj => ?_
    have hj : j < A.shape.getD 0 0 := by simpa using hj
    show (ttVal (cs.take 1) [j] 0 x - swapR A.shape A.get R 1 x [j]) ^ 2 = _
    have q1 : ttVal (cs.take 1) [j] 0 x = (core s.psi 0).get [0, j, x] := by
      rw [h3.val_one rfl (by omega), h4]; rfl
    have q2 : swapR A.shape A.get R 1 x [j] = (core t.psi 0).get [0, j, x] := by
      unfold core
      rw [ht, sketchOf_psi_get (by omega) Nat.one_pos hj hx, psiSpec_first hL]
      rfl
    rw [q1, q2]
  rw [eN]
  refine fin.trans (le_of_eq ?_)
  unfold leftBound
  have sh : ∀ a, ∏ nu ∈ Ico a (A.shape.length - 1), frobN (core cs (nu + 1))
      = ∏ nu ∈ Ico (a + 1) A.shape.length, frobN (core cs nu) := by
    intro a
    have := prod_Ico_add' (fun nu => frobN (core cs nu)) a (A.shape.length - 1) 1
    rwa [Nat.sub_add_cancel hd] at this
  rw [e0, sh]
  congr 1
  exact sum_congr rfl fun mu _ => by rw [sh]

/-! ### Norms of the cores -/

theorem es_right_norm {W G C : ND ℝ} {a n l r : ℕ} (hW : W.shape = [a, n, r]) (hG : G.shape = [r, l]) (hC : C.shape = [a, n, l])
    (h : ∀ x < a, ∀ j < n, ∀ c < l, C.get [x, j, c] = (ND.es_ijk_kl_ijl W G).get [x, j, c]) : frobN C ≤ frobN W * frobN G := by
  have h1 := es_right_diff hW hG (show (ND.zeros [r, l] : ND ℝ).shape = [r, l] from rfl)
  rw [frobD_zeros G] at h1
  refine le_trans (le_of_eq ?_) h1
  rw [frobN_eq3 hC, frobD_eq3 (ND.es_ijk_kl_ijl_shape hW hG)]
  congr 1
  refine sum_congr rfl fun x hx => sum_congr rfl fun j hj => sum_congr rfl fun c hc => ?_
  rw [h x (by simpa using hx) j (by simpa using hj) c (by simpa using hc),
    ND.es_ijk_kl_ijl_get hW (show (ND.zeros [r, l] : ND ℝ).shape = [r, l] from rfl), sum_eq_zero fun b _ => by rw [ND.zeros_get, mul_zero], sub_zero]

theorem es_left_norm {W G C : ND ℝ} {a n l r : ℕ} (hW : W.shape = [l, n, a]) (hG : G.shape = [r, l]) (hC : C.shape = [r, n, a])
    (h : ∀ x < r, ∀ j < n, ∀ c < a, C.get [x, j, c] = (ND.es_ij_jkl_ikl G W).get [x, j, c]) : frobN C ≤ frobN W * frobN G := by
  have h1 := es_left_diff hW hG (show (ND.zeros [r, l] : ND ℝ).shape = [r, l] from rfl)
  rw [frobD_zeros G] at h1
  refine le_trans (le_of_eq ?_) h1
  rw [frobN_eq3 hC, frobD_eq3 (ND.es_ij_jkl_ikl_shape hG hW)]
  congr 1
  refine sum_congr rfl fun x hx => sum_congr rfl fun j hj => sum_congr rfl fun c hc => ?_
  rw [h x (by simpa using hx) j (by simpa using hj) c (by simpa using hc),
    ND.es_ij_jkl_ikl_get (show (ND.zeros [r, l] : ND ℝ).shape = [r, l] from rfl) hW, sum_eq_zero fun b _ => by rw [ND.zeros_get, zero_mul], sub_zero]

theorem frobN_zeros (sh : List ℕ) : frobN (ND.zeros sh : ND ℝ) = 0 := by
  rw [← frobD_zeros (ND.zeros sh) sh, frobD_self]

theorem core_norm_arith {c w p g o ε : ℝ} (hg : 0 ≤ g) (h1 : c ≤ w * g)
    (h2 : w ≤ (p + ε * o * c + 2 * ε * p) + p) (h3 : ε * g * o ≤ 1 / 2) (hc : 0 ≤ c) : c ≤ 4 * (1 + ε) * g * p := by
  have h4 := mul_le_mul_of_nonneg_right h2 hg
  have h5 := mul_le_mul_of_nonneg_right h3 hc
  nlinarith

/-- A right inverse bounds the solution of a least squares problem. -/
theorem solve_norm {ε : ℝ} {C P O G : ND ℝ} {a n l r : ℕ} (hC : C.shape = [a, n, l]) (hO : O.shape = [l, r])
    (hP : P.shape = [a, n, r]) (hG : G.shape = [r, l])
    (hinv : ∀ a < l, ∀ c < l, ∑ b ∈ range r, O.get [a, b] * G.get [b, c] = if a = c then 1 else 0)
    (hsmall : ε * frobN G * frobN O ≤ 1 / 2)
    (h5 : ∀ Z : ND ℝ, Z.shape = [a, n, l] → frobD (ND.es_ijk_kl_ijl C O) P
      ≤ frobD (ND.es_ijk_kl_ijl Z O) P + ε * frobN O * (frobN C + frobN Z) + 2 * ε * frobN P) :
    frobN C ≤ 4 * (1 + ε) * frobN G * frobN P := by
  have h5 := h5 (ND.zeros _) rfl
  have hW := ND.es_ijk_kl_ijl_shape hC hO
  have hz : (ND.zeros [a, n, l] : ND ℝ).shape = _ := rfl
  have e1 : frobD (ND.es_ijk_kl_ijl (ND.zeros [a, n, l]) O) P = frobN P := by
    rw [frobD_eq3 (ND.es_ijk_kl_ijl_shape hz hO), frobN_eq3 hP]
    congr 1
    refine sum_congr rfl fun x _ => sum_congr rfl fun j _ => sum_congr rfl fun c _ => ?_
    rw [ND.es_ijk_kl_ijl_get hz hO, sum_eq_zero fun b _ => by rw [ND.zeros_get, zero_mul]]
    ring
  have e2 : frobN (ND.zeros [a, n, l]) = 0 := frobN_zeros _
  rw [e1, e2, add_zero] at h5
  have h6 := frobN_le (A := P) (B := ND.es_ijk_kl_ijl C O) (by rw [hW, hP])
  rw [frobD_symm (A := P) (by rw [hW, hP])] at h6
  refine core_norm_arith (frobN_nonneg G) (es_right_norm hW hG hC fun x _ j _ c hc => ?_) (h6.trans (by linarith)) hsmall
    (frobN_nonneg C)
  rw [ND.es_ijk_kl_ijl_get hW hG]
  have : ∀ b ∈ range (r), (ND.es_ijk_kl_ijl C O).get [x, j, b] * G.get [b, c]
      = ∑ a ∈ range (l), C.get [x, j, a] * (O.get [a, b] * G.get [b, c]) := by
    intro b _
    rw [ND.es_ijk_kl_ijl_get hC hO, sum_mul]
    exact sum_congr rfl fun _ _ => mul_assoc _ _ _
  rw [sum_congr rfl this, sum_comm]
  have : ∀ a ∈ range (l), ∑ b ∈ range (r), C.get [x, j, a] * (O.get [a, b] * G.get [b, c])
      = if a = c then C.get [x, j, a] else 0 := by
    intro a ha
    rw [← mul_sum, hinv a (by simpa using ha) c hc]
    split <;> simp
  rw [sum_congr rfl this, sum_ite_eq' (range (l)) c, if_pos (by simpa using hc)]

/-- A right inverse of `Omega[mu]` bounds the core of direction `right`. -/
theorem right_core_norm {env : Env ℝ} {ε : ℝ} (hε : 0 ≤ ε) (hE : LstsqApproxContract env ε) {sh lr rr : List ℕ}
    {s : Container ℝ} (hd : 1 ≤ sh.length) (hl : lr.length = sh.length - 1) (hr : rr.length = sh.length - 1)
    (hs : s.HasShape sh lr rr) {cs : List (ND ℝ)} (h : assembleRight env s = .ok cs) {mu : ℕ} (hmu : mu < sh.length - 1)
    {G : ND ℝ} (hG : G.shape = [rr.getD mu 0, lr.getD mu 0])
    (hinv : ∀ a < lr.getD mu 0, ∀ c < lr.getD mu 0, ∑ b ∈ range (rr.getD mu 0), (core s.omega mu).get [a, b] * G.get [b, c]
      = if a = c then 1 else 0) (hsmall : ε * frobN G * frobN (core s.omega mu) ≤ 1 / 2) :
    frobN (core cs mu) ≤ 4 * (1 + ε) * frobN G * frobN (core s.psi mu) := by
  obtain ⟨cs', h1, h2, h3, -, h5⟩ := assembleRight_each
    (q := fun a n r l C P O => ∀ Z : ND ℝ, Z.shape = [a, n, l] → frobD (ND.es_ijk_kl_ijl C O) P
      ≤ frobD (ND.es_ijk_kl_ijl Z O) P + ε * frobN O * (frobN C + frobN Z) + 2 * ε * frobN P)
    (fun _ _ _ _ _ _ hP hO => rightCore_approx hε hE hP hO) hd hl hr hs
  rw [h] at h1
  injection h1 with h1
  subst h1
  have hC := h3 mu (by omega)
  beta_reduce at hC
  rw [aug_left (by omega), aug_right (by omega)] at hC
  have hO := hs.omega mu hmu
  have hP := hs.psi mu (by omega)
  rw [List.getD_append _ _ _ _ (by omega)] at hP
  have h5 := h5 mu hmu
  exact solve_norm hC hO hP hG hinv hsmall h5

/-- A left inverse of `Omega[mu]` bounds the core of direction `left`. -/
theorem left_core_norm {env : Env ℝ} {ε : ℝ} (hε : 0 ≤ ε) (hE : LstsqApproxContract env ε) {sh lr rr : List ℕ}
    {s : Container ℝ} (hd : 1 ≤ sh.length) (hr : rr.length = sh.length - 1)
    (hs : s.HasShape sh lr rr) {cs : List (ND ℝ)} (h : assembleLeft env s = .ok cs) {mu : ℕ} (hmu : mu < sh.length - 1)
    {G : ND ℝ} (hG : G.shape = [rr.getD mu 0, lr.getD mu 0])
    (hinv : ∀ b < rr.getD mu 0, ∀ c < rr.getD mu 0, ∑ a ∈ range (lr.getD mu 0), G.get [b, a] * (core s.omega mu).get [a, c]
      = if b = c then 1 else 0) (hsmall : ε * frobN G * frobN (core s.omega mu) ≤ 1 / 2) :
    frobN (core cs (mu + 1)) ≤ 4 * (1 + ε) * frobN G * frobN (core s.psi (mu + 1)) := by
  obtain ⟨cs', h1, h2, h3, -, h5⟩ := assembleLeft_each
    (q := fun a n r l C P O => ∀ Z : ND ℝ, Z.shape = [r, n, a] → frobD (ND.es_ij_jkl_ikl O C) P
      ≤ frobD (ND.es_ij_jkl_ikl O Z) P + ε * frobN O * (frobN C + frobN Z) + 2 * ε * frobN P)
    (fun _ _ _ _ _ _ hP hO => leftCore_approx hε hE hP hO) hd hr hs
  rw [h] at h1
  injection h1 with h1
  subst h1
  have hC := h3 (mu + 1) (by omega)
  beta_reduce at hC
  rw [aug_right (by omega), aug_right'] at hC
  have hO := hs.omega mu hmu
  have hP := hs.psi (mu + 1) (by omega)
  rw [List.getD_cons_succ] at hP
  have h5 := h5 mu hmu (ND.zeros _) rfl
  change frobN (cs.getD (mu + 1) _) ≤ 4 * (1 + ε) * frobN G * frobN (s.psi.getD (mu + 1) _)
  change ε * frobN G * frobN (s.omega.getD mu _) ≤ 1 / 2 at hsmall
  change ∀ b < rr.getD mu 0, ∀ c < rr.getD mu 0, ∑ a ∈ range (lr.getD mu 0), G.get [b, a]
    * (s.omega.getD mu (ND.zeros [])).get [a, c] = if b = c then 1 else 0 at hinv
  generalize cs.getD (mu + 1) (ND.zeros []) = C at *
  generalize s.omega.getD mu (ND.zeros []) = O at *
  generalize s.psi.getD (mu + 1) (ND.zeros []) = P at *
  have hW := ND.es_ij_jkl_ikl_shape hO hC
  have hz : (ND.zeros [rr.getD mu 0, sh.getD (mu + 1) 0, (rr ++ [1]).getD (mu + 1) 0] : ND ℝ).shape = _ := rfl
  have e1 : frobD (ND.es_ij_jkl_ikl O (ND.zeros [rr.getD mu 0, sh.getD (mu + 1) 0, (rr ++ [1]).getD (mu + 1) 0])) P
      = frobN P := by
    rw [frobD_eq3 (ND.es_ij_jkl_ikl_shape hO hz), frobN_eq3 hP]
    congr 1
    refine sum_congr rfl fun x _ => sum_congr rfl fun j _ => sum_congr rfl fun c _ => ?_
    rw [ND.es_ij_jkl_ikl_get hO hz, sum_eq_zero fun b _ => by rw [ND.zeros_get, mul_zero]]
    ring
  have e2 : frobN (ND.zeros [rr.getD mu 0, sh.getD (mu + 1) 0, (rr ++ [1]).getD (mu + 1) 0]) = 0 := frobN_zeros _
  rw [e1, e2, add_zero] at h5
  have h6 := frobN_le (A := P) (B := ND.es_ij_jkl_ikl O C) (by rw [hW, hP])
  rw [frobD_symm (A := P) (by rw [hW, hP])] at h6
  refine core_norm_arith (frobN_nonneg G) (es_left_norm hW hG hC fun x hx j _ c _ => ?_) (h6.trans (by linarith)) hsmall
    (frobN_nonneg C)
  rw [ND.es_ij_jkl_ikl_get hG hW]
  have : ∀ a ∈ range (lr.getD mu 0), G.get [x, a] * (ND.es_ij_jkl_ikl O C).get [a, j, c]
      = ∑ b ∈ range (rr.getD mu 0), G.get [x, a] * O.get [a, b] * C.get [b, j, c] := by
    intro a _
    rw [ND.es_ij_jkl_ikl_get hO hC, mul_sum]
    exact sum_congr rfl fun _ _ => (mul_assoc _ _ _).symm
  rw [sum_congr rfl this, sum_comm]
  have : ∀ b ∈ range (rr.getD mu 0), ∑ a ∈ range (lr.getD mu 0), G.get [x, a] * O.get [a, b] * C.get [b, j, c]
      = if x = b then C.get [b, j, c] else 0 := by
    intro b hb
    rw [← sum_mul, hinv x hx b (by simpa using hb)]
    split <;> simp
  rw [sum_congr rfl this, sum_ite_eq (range (rr.getD mu 0)) x, if_pos (by simpa using hx)]

end TTS
