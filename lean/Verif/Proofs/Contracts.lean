import Verif.Spec.Contract
import Mathlib.Analysis.InnerProductSpace.PiL2
import Mathlib.Analysis.InnerProductSpace.GramSchmidtOrtho

/-! The contracts of the external routines can be met. -/

namespace TTS

open Finset

/-- Any matrix has an economic QR factorisation. -/
theorem exists_qr (M : ℕ → ℕ → ℝ) (m n : ℕ) : ∃ Q R : ℕ → ℕ → ℝ,
    (∀ i < m, ∀ j < n, ∑ t ∈ range (min m n), Q i t * R t j = M i j) ∧
    (∀ s < min m n, ∀ t < min m n, ∑ i ∈ range m, Q i s * Q i t = if s = t then 1 else 0) ∧
    ∀ t < min m n, ∀ j < t, R t j = 0 := by
  classical
  let E := EuclideanSpace ℝ (Fin m)
  let col : ℕ → E := fun j => WithLp.toLp 2 fun i => M i j
  let f : Fin m → E := fun i => if (i : ℕ) < n then col i else 0
  have hE : Module.finrank ℝ E = Fintype.card (Fin m) := by simp [E]
  let b : OrthonormalBasis (Fin m) ℝ E := InnerProductSpace.gramSchmidtOrthonormalBasis hE f
  have htri : ∀ (t : Fin m) (j : ℕ), j < t → j < n → inner ℝ (b t) (col j) = (0 : ℝ) := by
    intro t j hjt hjn
    have := InnerProductSpace.gramSchmidtOrthonormalBasis_inv_triangular hE f
      (i := ⟨j, by have := t.2; omega⟩) (j := t) (by rw [Fin.lt_def]; exact hjt)
    simpa only [f, if_pos hjn] using this
  refine ⟨fun i t => if h : i < m ∧ t < m then b ⟨t, h.2⟩ ⟨i, h.1⟩ else 0,
    fun t j => if h : t < m then inner ℝ (b ⟨t, h⟩) (col j) else 0, ?_, ?_, ?_⟩
  · intro i hi j hj
    have := b.sum_repr' (col j)
    have h2 := congrArg (fun x : E => x ⟨i, hi⟩) this
    have h3 : (col j) ⟨i, hi⟩ = M i j := rfl
    rw [← h3, ← h2]
    have h4 : (∑ t, inner ℝ (b t) (col j) • b t : E) ⟨i, hi⟩
        = ∑ t : Fin m, inner ℝ (b t) (col j) * b t ⟨i, hi⟩ := by
      rw [WithLp.ofLp_sum, Finset.sum_apply]
      rfl
    rw [h4]
    have h5 : ∑ t : Fin m, inner ℝ (b t) (col j) * b t ⟨i, hi⟩
        = ∑ t ∈ range m, (if h : i < m ∧ t < m then b ⟨t, h.2⟩ ⟨i, h.1⟩ else 0)
          * (if h : t < m then inner ℝ (b ⟨t, h⟩) (col j) else 0) := by
      rw [Finset.sum_range]
      refine sum_congr rfl fun t _ => ?_
      rw [dif_pos ⟨hi, t.2⟩, dif_pos t.2, mul_comm]
    rw [h5]
    refine sum_subset (by intro x hx; simp at hx ⊢; omega) ?_
    intro t ht ht'
    have h6 : t < m := by simpa using ht
    beta_reduce
    rw [dif_pos h6, htri ⟨t, h6⟩ j (by simp at ht' ⊢; omega) hj, mul_zero]
  · intro s hs t ht
    have hs' : s < m := by omega
    have ht' : t < m := by omega
    have := (orthonormal_iff_ite.1 b.orthonormal) ⟨s, hs'⟩ ⟨t, ht'⟩
    rw [Finset.sum_range]
    rw [show (if (⟨s, hs'⟩ : Fin m) = ⟨t, ht'⟩ then (1 : ℝ) else 0) = if s = t then 1 else 0 by simp] at this
    rw [← this, PiLp.inner_apply]
    refine sum_congr rfl fun i _ => ?_
    beta_reduce
    rw [dif_pos ⟨i.2, hs'⟩, dif_pos ⟨i.2, ht'⟩]
    simp [mul_comm]
  · intro t ht j hj
    have h6 : t < m := by omega
    beta_reduce
    rw [dif_pos h6, htri ⟨t, h6⟩ j hj (by omega)]

open Classical in
/-- A least squares routine: exact column by column where that is possible. -/
noncomputable def lstsqChoice {K : Type*} [CommRing K] (A B : ND K) : ND K :=
  ND.ofFn [A.dim 1, B.dim 1] fun tj =>
    if h : ∃ x : ℕ → K, ∀ i < A.dim 0, ∑ t ∈ range (A.dim 1), A.get [i, t] * x t = B.get [i, tj.getD 1 0]
    then h.choose (tj.getD 0 0) else 0

/-- An economic QR routine. -/
noncomputable def qrChoice (M : ND ℝ) : ND ℝ × ND ℝ :=
  let h := exists_qr (fun i j => M.get [i, j]) (M.dim 0) (M.dim 1)
  let s := min (M.dim 0) (M.dim 1)
  (ND.ofFn [M.dim 0, s] fun ij => h.choose (ij.getD 0 0) (ij.getD 1 0),
   ND.ofFn [s, M.dim 1] fun ij => h.choose_spec.choose (ij.getD 0 0) (ij.getD 1 0))

theorem lstsqChoice_contract {K : Type*} [CommRing K] {env : Env K} (h : env.lstsq = lstsqChoice) : LstsqContract env := by
  intro A B m n k hA hB
  have hA0 : A.dim 0 = m := by simp [ND.dim, hA]
  have hA1 : A.dim 1 = n := by simp [ND.dim, hA]
  have hB1 : B.dim 1 = k := by simp [ND.dim, hB]
  rw [h]
  refine ⟨by simp [lstsqChoice, hA1, hB1], fun j hj hx i hi => ?_⟩
  have hx' : ∃ x : ℕ → K, ∀ i < A.dim 0, ∑ t ∈ range (A.dim 1), A.get [i, t] * x t = B.get [i, j] := by
    rwa [hA0, hA1]
  rw [← hx'.choose_spec i (by rwa [hA0])]
  refine sum_congr (by rw [hA1]) fun t ht => ?_
  congr 1
  rw [lstsqChoice, ND.ofFn_get (by rw [hA1, hB1]; exact ⟨by simpa [hA1] using ht, hj, trivial⟩)]
  exact dif_pos hx'

theorem qrChoice_contract {env : Env ℝ} (h : env.qr = qrChoice) : QRContract env := by
  intro M m n hM
  have h0 : M.dim 0 = m := by simp [ND.dim, hM]
  have h1 : M.dim 1 = n := by simp [ND.dim, hM]
  have H := (exists_qr (fun i j => M.get [i, j]) (M.dim 0) (M.dim 1)).choose_spec.choose_spec
  rw [h]
  have gQ : ∀ i < m, ∀ t < min m n, (qrChoice M).1.get [i, t]
      = (exists_qr (fun i j => M.get [i, j]) (M.dim 0) (M.dim 1)).choose i t := by
    intro i hi t ht
    rw [qrChoice, ND.ofFn_get (by rw [h0, h1]; exact ⟨hi, ht, trivial⟩)]; rfl
  have gR : ∀ t < min m n, ∀ j < n, (qrChoice M).2.get [t, j]
      = (exists_qr (fun i j => M.get [i, j]) (M.dim 0) (M.dim 1)).choose_spec.choose t j := by
    intro t ht j hj
    rw [qrChoice, ND.ofFn_get (by rw [h0, h1]; exact ⟨ht, hj, trivial⟩)]; rfl
  refine ⟨by simp [qrChoice, h0, h1], by simp [qrChoice, h0, h1], fun i hi j hj => ?_, fun s hs t ht => ?_,
    fun t ht j hj => ?_⟩
  · rw [← H.1 i (by rwa [h0]) j (by rwa [h1]), h0, h1]
    refine sum_congr rfl fun t ht => ?_
    rw [gQ i hi t (by simpa using ht), gR t (by simpa using ht) j hj, h0, h1]
  · have := H.2.1 s (by rwa [h0, h1]) t (by rwa [h0, h1])
    rw [← this, h0, h1]
    refine sum_congr rfl fun i hi => ?_
    rw [gQ i (by simpa using hi) s hs, gQ i (by simpa using hi) t ht, h0, h1]
  · rw [gR t ht j (by omega)]
    exact H.2.2 t (by rwa [h0, h1]) j hj

/-- Every matrix over a field has a generalised inverse. -/
theorem exists_ginv {K : Type*} [Field K] {m n : ℕ} (A : Matrix (Fin m) (Fin n) K) :
    ∃ G : Matrix (Fin n) (Fin m) K, A * G * A = A := by
  let f := A.toLin'
  obtain ⟨s, hs⟩ := f.rangeRestrict.exists_rightInverse_of_surjective f.range_rangeRestrict
  obtain ⟨p, hp⟩ := (f.range.subtype).exists_leftInverse_of_injective f.range.ker_subtype
  refine ⟨LinearMap.toMatrix' (s ∘ₗ p), ?_⟩
  apply Matrix.toLin'.injective
  rw [Matrix.toLin'_mul, Matrix.toLin'_mul, Matrix.toLin'_toMatrix']
  refine LinearMap.ext fun v => ?_
  show f (s (p (f v))) = f v
  have h1 : p (f v) = f.rangeRestrict v := by
    have := congrArg (fun g => g (f.rangeRestrict v)) hp
    simpa using this
  rw [h1]
  have h2 := congrArg (fun g => g (f.rangeRestrict v)) hs
  have h3 := congrArg Subtype.val h2
  simpa using h3

/-- A generalised inverse of a two-axis array. -/
theorem exists_ginv_nd {K : Type*} [Field K] (A : ND K) (m n : ℕ) : ∃ G : ℕ → ℕ → K,
    ∀ i < m, ∀ j < n, ∑ t ∈ range n, ∑ s ∈ range m, A.get [i, t] * G t s * A.get [s, j] = A.get [i, j] := by
  obtain ⟨G, hG⟩ := exists_ginv (A.asMatrix m n)
  refine ⟨fun t s => if h : t < n ∧ s < m then G ⟨t, h.1⟩ ⟨s, h.2⟩ else 0, fun i hi j hj => ?_⟩
  have := congrFun (congrFun hG ⟨i, hi⟩) ⟨j, hj⟩
  rw [Matrix.mul_apply] at this
  simp only [Matrix.mul_apply, sum_mul] at this
  change _ = A.get [i, j] at this
  rw [← this, sum_comm (s := range n), sum_range]
  refine sum_congr rfl fun s _ => ?_
  rw [sum_range]
  exact sum_congr rfl fun t _ => by beta_reduce; rw [dif_pos ⟨t.2, s.2⟩]; rfl

/-- A pseudo-inverse routine. -/
noncomputable def pinvChoice {K : Type*} [Field K] (A B : ND K) : ND K :=
  ND.ofFn [A.dim 1, B.dim 1] fun tj =>
    ∑ s ∈ range (A.dim 0), (exists_ginv_nd A (A.dim 0) (A.dim 1)).choose (tj.getD 0 0) s * B.get [s, tj.getD 1 0]

theorem pinvChoice_contract {K : Type*} [Field K] {env : Env K} (h : env.lstsq = pinvChoice) : PinvContract env := by
  intro A m n hA
  have hA0 : A.dim 0 = m := by simp [ND.dim, hA]
  have hA1 : A.dim 1 = n := by simp [ND.dim, hA]
  have hG := (exists_ginv_nd A (A.dim 0) (A.dim 1)).choose_spec
  refine ⟨(exists_ginv_nd A (A.dim 0) (A.dim 1)).choose, by rwa [hA0, hA1] at hG ⊢, fun B k hB => ?_⟩
  have hB1 : B.dim 1 = k := by simp [ND.dim, hB]
  rw [h]
  refine ⟨by simp [pinvChoice, hA1, hB1], fun t ht j hj => ?_⟩
  rw [pinvChoice, ND.ofFn_get (by rw [hA1, hB1]; exact ⟨ht, hj, trivial⟩)]
  exact sum_congr (by rw [hA0]) fun _ _ => rfl

/-- A routine multiplying with a generalised inverse solves every solvable system. -/
theorem PinvContract.lstsq {K : Type*} [CommRing K] {env : Env K} (h : PinvContract env) : LstsqContract env := by
  intro A B m n k hA hB
  obtain ⟨G, hG, hB'⟩ := h A m n hA
  obtain ⟨h1, h2⟩ := hB' B k hB
  refine ⟨h1, ?_⟩
  rintro j hj ⟨x, hx⟩ i hi
  have e : ∀ t < n, (env.lstsq A B).get [t, j] = ∑ s ∈ range m, ∑ u ∈ range n, G t s * A.get [s, u] * x u := by
    intro t ht
    rw [h2 t ht j hj]
    refine sum_congr rfl fun s hs => ?_
    rw [← hx s (by simpa using hs), mul_sum]
    exact sum_congr rfl fun u _ => by ring
  calc ∑ t ∈ range n, A.get [i, t] * (env.lstsq A B).get [t, j]
      = ∑ t ∈ range n, ∑ s ∈ range m, ∑ u ∈ range n, A.get [i, t] * G t s * A.get [s, u] * x u := by
        refine sum_congr rfl fun t ht => ?_
        rw [e t (by simpa using ht), mul_sum]
        refine sum_congr rfl fun s _ => ?_
        rw [mul_sum]
        exact sum_congr rfl fun u _ => by ring
    _ = ∑ u ∈ range n, (∑ t ∈ range n, ∑ s ∈ range m, A.get [i, t] * G t s * A.get [s, u]) * x u := by
        simp only [sum_mul]
        rw [sum_comm (s := range n) (t := range n)]
        exact sum_congr rfl fun t _ => sum_comm
    _ = B.get [i, j] := by
        rw [← hx i hi]
        exact sum_congr rfl fun u hu => by rw [hG i hi u (by simpa using hu)]

end TTS
