import Verif.Spec.Numerics
import Verif.Proofs.Contracts

/-! Orthonormal families in sums, and the best rank-`r` approximation of a matrix. -/

namespace TTS

open Finset

/-- The family `W 0, ..., W (k-1)` is orthonormal for the sum over `J`. -/
def Orthn {ι : Type*} (J : Finset ι) (k : ℕ) (W : ℕ → ι → ℝ) : Prop :=
  ∀ s < k, ∀ t < k, ∑ j ∈ J, W s j * W t j = if s = t then 1 else 0

section
variable {ι : Type*} {J : Finset ι} {k : ℕ} {W : ℕ → ι → ℝ}

theorem Orthn.mono {k' : ℕ} (h : Orthn J k W) (hk : k' ≤ k) : Orthn J k' W :=
  fun s hs t ht => h s (by omega) t (by omega)

theorem Orthn.inner (h : Orthn J k W) (a b : ℕ → ℝ) :
    ∑ j ∈ J, (∑ t ∈ range k, a t * W t j) * (∑ t ∈ range k, b t * W t j) = ∑ t ∈ range k, a t * b t := by
  have e : ∀ j, (∑ t ∈ range k, a t * W t j) * (∑ t ∈ range k, b t * W t j)
      = ∑ s ∈ range k, ∑ t ∈ range k, a s * b t * (W s j * W t j) := by
    intro j
    rw [sum_mul_sum]
    exact sum_congr rfl fun x _ => sum_congr rfl fun y _ => by ring
  simp only [e]
  rw [sum_comm]
  refine sum_congr rfl fun s hs => ?_
  rw [sum_comm]
  have e2 : ∀ t ∈ range k, ∑ j ∈ J, a s * b t * (W s j * W t j) = if s = t then a s * b t else 0 := by
    intro t ht
    rw [← mul_sum, h s (by simpa using hs) t (by simpa using ht)]
    split_ifs <;> simp
  rw [sum_congr rfl e2, sum_ite_eq, if_pos hs]

theorem Orthn.parseval (h : Orthn J k W) (a : ℕ → ℝ) :
    ∑ j ∈ J, (∑ t ∈ range k, a t * W t j) ^ 2 = ∑ t ∈ range k, a t ^ 2 := by
  have := h.inner a a
  simpa only [← sq] using this

theorem Orthn.dist (h : Orthn J k W) (y : ι → ℝ) (a : ℕ → ℝ) :
    ∑ j ∈ J, (y j - ∑ t ∈ range k, a t * W t j) ^ 2
      = ∑ j ∈ J, y j ^ 2 - 2 * ∑ t ∈ range k, a t * (∑ j ∈ J, y j * W t j) + ∑ t ∈ range k, a t ^ 2 := by
  rw [← h.parseval a]
  have e : ∑ t ∈ range k, a t * (∑ j ∈ J, y j * W t j) = ∑ j ∈ J, y j * ∑ t ∈ range k, a t * W t j := by
    simp only [mul_sum]
    rw [sum_comm]
    exact sum_congr rfl fun j _ => sum_congr rfl fun t _ => by ring
  rw [e, mul_sum, ← sum_sub_distrib, ← sum_add_distrib]
  exact sum_congr rfl fun j _ => by ring

/-- Bessel's inequality. -/
theorem Orthn.bessel (h : Orthn J k W) (y : ι → ℝ) :
    ∑ t ∈ range k, (∑ j ∈ J, y j * W t j) ^ 2 ≤ ∑ j ∈ J, y j ^ 2 := by
  have h1 := h.dist y fun t => ∑ j ∈ J, y j * W t j
  have h2 : 0 ≤ ∑ j ∈ J, (y j - ∑ t ∈ range k, (∑ j ∈ J, y j * W t j) * W t j) ^ 2 :=
    sum_nonneg fun _ _ => sq_nonneg _
  rw [h1] at h2
  simp only [← sq] at h2
  linarith

/-- The coefficients of the best approximation are the inner products. -/
theorem Orthn.best (h : Orthn J k W) (y : ι → ℝ) (a : ℕ → ℝ) :
    ∑ j ∈ J, y j ^ 2 - ∑ t ∈ range k, (∑ j ∈ J, y j * W t j) ^ 2
      ≤ ∑ j ∈ J, (y j - ∑ t ∈ range k, a t * W t j) ^ 2 := by
  rw [h.dist]
  have : 0 ≤ ∑ t ∈ range k, (a t - ∑ j ∈ J, y j * W t j) ^ 2 := sum_nonneg fun _ _ => sq_nonneg _
  have e : ∑ t ∈ range k, (a t - ∑ j ∈ J, y j * W t j) ^ 2
      = ∑ t ∈ range k, a t ^ 2 - 2 * ∑ t ∈ range k, a t * (∑ j ∈ J, y j * W t j)
        + ∑ t ∈ range k, (∑ j ∈ J, y j * W t j) ^ 2 := by
    rw [mul_sum, ← sum_sub_distrib, ← sum_add_distrib]
    exact sum_congr rfl fun t _ => by ring
  linarith

end

/-- Weights in `[0, 1]` of total at most `r` gain at most the first `r` of decreasing nonnegative values. -/
theorem sum_weights_le {q r : ℕ} (hr : r ≤ q) {c w : ℕ → ℝ} (hc : ∀ t, 0 ≤ c t) (hm : ∀ s t, s ≤ t → c t ≤ c s)
    (h0 : ∀ t < q, 0 ≤ w t) (h1 : ∀ t < q, w t ≤ 1) (hs : ∑ t ∈ range q, w t ≤ r) :
    ∑ t ∈ range q, c t * w t ≤ ∑ t ∈ range r, c t := by
  rw [← sum_range_add_sum_Ico _ hr]
  rw [← sum_range_add_sum_Ico _ hr] at hs
  have e1 : ∑ t ∈ Ico r q, c t * w t ≤ c r * ∑ t ∈ Ico r q, w t := by
    rw [mul_sum]
    refine sum_le_sum fun t ht => ?_
    have := mem_Ico.1 ht
    exact mul_le_mul_of_nonneg_right (hm r t this.1) (h0 t this.2)
  have e2 : c r * ∑ t ∈ range r, (1 - w t) ≤ ∑ t ∈ range r, c t * (1 - w t) := by
    rw [mul_sum]
    refine sum_le_sum fun t ht => ?_
    have := mem_range.1 ht
    exact mul_le_mul_of_nonneg_right (hm t r this.le) (by linarith [h1 t (by omega)])
  have e3 : ∑ t ∈ range r, c t * (1 - w t) = ∑ t ∈ range r, c t - ∑ t ∈ range r, c t * w t := by
    rw [← sum_sub_distrib]; exact sum_congr rfl fun t _ => by ring
  have e4 : ∑ t ∈ range r, (1 - w t) = r - ∑ t ∈ range r, w t := by
    rw [sum_sub_distrib]; simp
  rw [e3, e4] at e2
  have e5 : c r * ∑ t ∈ Ico r q, w t ≤ c r * (r - ∑ t ∈ range r, w t) :=
    mul_le_mul_of_nonneg_left (by linarith) (hc r)
  linarith

/-- Sum of squares of the entries in terms of the singular values. -/
theorem IsSVD.sum_sq {M U V : ND ℝ} {S : List ℝ} {m n u v : ℕ} (h : IsSVD M U S V m n u v) (hu : min m n ≤ u)
    (hv : min m n ≤ v) :
    ∑ i ∈ range m, ∑ j ∈ range n, M.get [i, j] ^ 2 = ∑ t ∈ range (min m n), S.getD t 0 ^ 2 := by
  have oV : Orthn (range n) (min m n) fun t j => V.get [t, j] :=
    fun s hs t ht => h.orthV s (by omega) t (by omega)
  have oU : Orthn (range m) (min m n) fun t i => U.get [i, t] :=
    fun s hs t ht => h.orthU s (by omega) t (by omega)
  have e : ∀ i ∈ range m, ∑ j ∈ range n, M.get [i, j] ^ 2
      = ∑ t ∈ range (min m n), (U.get [i, t] * S.getD t 0) ^ 2 := by
    intro i hi
    rw [← oV.parseval]
    exact sum_congr rfl fun j hj => by rw [h.mul i (by simpa using hi) j (by simpa using hj)]
  rw [sum_congr rfl e, sum_comm]
  refine sum_congr rfl fun t ht => ?_
  have := oU t (by simpa using ht) t (by simpa using ht)
  rw [if_pos rfl] at this
  simp only [mul_pow]
  rw [← sum_mul]
  simp only [sq (U.get _)]
  rw [this, one_mul]

/-- **Eckart–Young** in the Frobenius norm: no matrix of rank at most `r` is closer than the tail of the singular
values. -/
theorem eckart_young {M U V : ND ℝ} {S : List ℝ} {m n u v : ℕ} (h : IsSVD M U S V m n u v) (hu : min m n ≤ u)
    (hv : min m n ≤ v) {r : ℕ} (f g : ℕ → ℕ → ℝ) :
    ∑ t ∈ Ico r (min m n), S.getD t 0 ^ 2
      ≤ ∑ i ∈ range m, ∑ j ∈ range n, (M.get [i, j] - ∑ s ∈ range r, f i s * g s j) ^ 2 := by
  by_cases hr : min m n ≤ r
  · rw [Ico_eq_empty (by omega), sum_empty]
    exact sum_nonneg fun _ _ => sum_nonneg fun _ _ => sq_nonneg _
  · have oV : Orthn (range n) (min m n) fun t j => V.get [t, j] :=
      fun s hs t ht => h.orthV s (by omega) t (by omega)
    have oU : Orthn (range m) (min m n) fun t i => U.get [i, t] :=
      fun s hs t ht => h.orthU s (by omega) t (by omega)
    obtain ⟨Q, R, q1, q2, _⟩ := exists_qr f m r
    obtain ⟨k, hk⟩ : ∃ k, k = min m r := ⟨_, rfl⟩
    rw [← hk] at q1 q2
    have oQ : Orthn (range m) k fun a i => Q i a := q2
    -- the approximation in the basis `Q`
    have hB : ∀ i < m, ∀ j, ∑ s ∈ range r, f i s * g s j
        = ∑ a ∈ range k, (∑ s ∈ range r, R a s * g s j) * Q i a := by
      intro i hi j
      have : ∀ s ∈ range r, f i s * g s j = ∑ a ∈ range k, Q i a * R a s * g s j := by
        intro s hs
        rw [← q1 i hi s (by simpa using hs), sum_mul]
      rw [sum_congr rfl this, sum_comm]
      refine sum_congr rfl fun a _ => ?_
      rw [sum_mul]
      exact sum_congr rfl fun s _ => by ring
    have step : ∀ j ∈ range n, ∑ i ∈ range m, M.get [i, j] ^ 2
          - ∑ a ∈ range k, (∑ i ∈ range m, M.get [i, j] * Q i a) ^ 2
        ≤ ∑ i ∈ range m, (M.get [i, j] - ∑ s ∈ range r, f i s * g s j) ^ 2 := by
      intro j _
      refine (oQ.best (fun i => M.get [i, j]) fun a => ∑ s ∈ range r, R a s * g s j).trans (le_of_eq ?_)
      exact sum_congr rfl fun i hi => by rw [hB i (by simpa using hi) j]
    have tot := sum_le_sum step
    rw [sum_sub_distrib, sum_comm, h.sum_sq hu hv] at tot
    rw [sum_comm (s := range m)]
    refine le_trans ?_ tot
    -- the projected part
    have proj : ∀ a, ∑ j ∈ range n, (∑ i ∈ range m, M.get [i, j] * Q i a) ^ 2
        = ∑ t ∈ range (min m n), S.getD t 0 ^ 2 * (∑ i ∈ range m, U.get [i, t] * Q i a) ^ 2 := by
      intro a
      have : ∀ j ∈ range n, (∑ i ∈ range m, M.get [i, j] * Q i a)
          = ∑ t ∈ range (min m n), (S.getD t 0 * ∑ i ∈ range m, U.get [i, t] * Q i a) * V.get [t, j] := by
        intro j hj
        have e1 : ∀ i ∈ range m, M.get [i, j] * Q i a
            = ∑ t ∈ range (min m n), S.getD t 0 * (U.get [i, t] * Q i a) * V.get [t, j] := by
          intro i hi
          rw [← h.mul i (by simpa using hi) j (by simpa using hj), sum_mul]
          exact sum_congr rfl fun t _ => by ring
        rw [sum_congr rfl e1, sum_comm]
        refine sum_congr rfl fun t _ => ?_
        rw [mul_sum, sum_mul]
      rw [sum_congr rfl fun j hj => by rw [this j hj], oV.parseval]
      exact sum_congr rfl fun t _ => by rw [mul_pow]
    rw [sum_comm, sum_congr rfl fun a _ => proj a, sum_comm]
    simp only [← mul_sum]
    have w1 : ∀ t < min m n, ∑ a ∈ range k, (∑ i ∈ range m, U.get [i, t] * Q i a) ^ 2 ≤ 1 := by
      intro t ht
      have := oQ.bessel fun i => U.get [i, t]
      refine this.trans (le_of_eq ?_)
      have h' := oU t ht t ht
      rw [if_pos rfl] at h'
      simpa only [sq] using h'
    have w2 : ∑ t ∈ range (min m n), ∑ a ∈ range k, (∑ i ∈ range m, U.get [i, t] * Q i a) ^ 2 ≤ (r : ℝ) := by
      rw [sum_comm]
      have : ∀ a ∈ range k, ∑ t ∈ range (min m n), (∑ i ∈ range m, U.get [i, t] * Q i a) ^ 2 ≤ 1 := by
        intro a ha
        have h1 := oU.bessel fun i => Q i a
        have h2 := oQ a (by simpa using ha) a (by simpa using ha)
        rw [if_pos rfl] at h2
        have h3 : ∑ i ∈ range m, Q i a ^ 2 = 1 := by simpa only [sq] using h2
        rw [h3] at h1
        refine le_trans (le_of_eq ?_) h1
        exact sum_congr rfl fun t _ => by
          congr 1; exact sum_congr rfl fun i _ => mul_comm _ _
      refine (sum_le_sum this).trans ?_
      simp only [sum_const, card_range, nsmul_eq_mul, mul_one]
      have : k ≤ r := by omega
      exact_mod_cast this
    have hw := sum_weights_le (q := min m n) (r := r) (by omega) (c := fun t => S.getD t 0 ^ 2)
      (w := fun t => ∑ a ∈ range k, (∑ i ∈ range m, U.get [i, t] * Q i a) ^ 2)
      (fun t => sq_nonneg _) (fun s t hst => pow_le_pow_left₀ (h.nonneg t) (h.antitone s t hst) 2)
      (fun t _ => sum_nonneg fun _ _ => sq_nonneg _) w1 w2
    have hsplit := sum_range_add_sum_Ico (fun t => S.getD t 0 ^ 2) (show r ≤ min m n by omega)
    linarith

end TTS
