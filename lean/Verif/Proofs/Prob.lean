import Verif.Proofs.PolyNull
import Verif.Spec.Prob
import Mathlib.LinearAlgebra.Matrix.Rank
import Mathlib.LinearAlgebra.Matrix.NonsingularInverse

/-!
# Polynomials in the draws, and matrices with such entries
-/

namespace TTS

open MeasureTheory Finset

/-- a polynomial in the draws of `T` -/
def PolyOn (T : Finset Draw) (f : (Draw → ℝ) → ℝ) : Prop :=
  ∃ p : MvPolynomial T ℝ, ∀ g : Draw → ℝ, f g = MvPolynomial.eval (fun x : T => g x) p

namespace PolyOn
variable {T : Finset Draw} {f h : (Draw → ℝ) → ℝ}

theorem const (c : ℝ) : PolyOn T fun _ => c := ⟨MvPolynomial.C c, fun g => by simp⟩

theorem draw {x : Draw} (hx : x ∈ T) : PolyOn T fun g => g x :=
  ⟨MvPolynomial.X ⟨x, hx⟩, fun g => by simp⟩

theorem add (hf : PolyOn T f) (hh : PolyOn T h) : PolyOn T fun g => f g + h g := by
  obtain ⟨p, hp⟩ := hf
  obtain ⟨q, hq⟩ := hh
  exact ⟨p + q, fun g => by rw [map_add, ← hp, ← hq]⟩

theorem mul (hf : PolyOn T f) (hh : PolyOn T h) : PolyOn T fun g => f g * h g := by
  obtain ⟨p, hp⟩ := hf
  obtain ⟨q, hq⟩ := hh
  exact ⟨p * q, fun g => by rw [map_mul, ← hp, ← hq]⟩

theorem sum {ι : Type*} (s : Finset ι) {f : ι → (Draw → ℝ) → ℝ} (hf : ∀ i ∈ s, PolyOn T (f i)) :
    PolyOn T fun g => ∑ i ∈ s, f i g := by
  classical
  induction s using Finset.induction_on with
  | empty => simpa using const 0
  | insert a s ha ih =>
    have := (hf a (by simp)).add (ih fun i hi => hf i (by simp [hi]))
    simpa only [Finset.sum_insert ha] using this

theorem prod {ι : Type*} (s : Finset ι) {f : ι → (Draw → ℝ) → ℝ} (hf : ∀ i ∈ s, PolyOn T (f i)) :
    PolyOn T fun g => ∏ i ∈ s, f i g := by
  classical
  induction s using Finset.induction_on with
  | empty => simpa using const 1
  | insert a s ha ih =>
    have := (hf a (by simp)).mul (ih fun i hi => hf i (by simp [hi]))
    simpa only [Finset.prod_insert ha] using this

theorem congr (hf : PolyOn T f) (e : ∀ g, h g = f g) : PolyOn T h := by
  obtain ⟨p, hp⟩ := hf
  exact ⟨p, fun g => by rw [e, hp]⟩

/-- A polynomial in the draws that is not zero for one outcome is almost surely not zero. -/
theorem ae_ne {Ω : Type*} [MeasurableSpace Ω] {P : Measure Ω} {g : Ω → Draw → ℝ} (hg : ContinuousDraws P g)
    (hT : Draw.Compatible T) (hf : PolyOn T f) (g0 : Draw → ℝ) (h0 : f g0 ≠ 0) : ∀ᵐ ω ∂P, f (g ω) ≠ 0 := by
  obtain ⟨p, hp⟩ := hf
  have hnull := poly_null p (fun x : T => g0 x) (by rw [← hp]; exact h0)
  have h1 := hg.density T hT hnull
  have hm : Measurable fun ω (x : T) => g ω x := measurable_pi_lambda _ fun x => hg.measurable x
  have hc : MeasurableSet {x : T → ℝ | MvPolynomial.eval x p = 0} :=
    (isClosed_eq (MvPolynomial.continuous_eval p) continuous_const).measurableSet
  rw [Measure.map_apply hm hc] at h1
  rw [ae_iff]
  simp only [not_not]
  convert h1 using 2
  ext ω
  simp [hp]

end PolyOn

/-! ### Matrices -/

/-- A matrix of rank `r` can be cut down to an invertible `r × r` matrix. -/
theorem exists_cut {m n : Type*} [Fintype m] [Fintype n] [DecidableEq m] [DecidableEq n] (A : Matrix m n ℝ) :
    ∃ (U : Matrix (Fin A.rank) m ℝ) (V : Matrix n (Fin A.rank) ℝ), U * A * V = 1 := by
  set W := LinearMap.range A.mulVecLin with hW
  have hfr : Module.finrank ℝ W = A.rank := rfl
  set b := Module.finBasisOfFinrankEq ℝ W hfr with hb
  -- preimages of the basis
  have hv : ∀ j, ∃ v : n → ℝ, A.mulVec v = (b j : m → ℝ) := fun j => (b j).2
  choose v hv using hv
  -- coordinates extended to the whole space
  obtain ⟨u, hu⟩ := LinearMap.exists_extend (b.equivFun.toLinearMap : W →ₗ[ℝ] Fin A.rank → ℝ)
  refine ⟨LinearMap.toMatrix' u, Matrix.of fun i j => v j i, ?_⟩
  have key : ∀ j, (LinearMap.toMatrix' u).mulVec (A.mulVec (v j)) = Pi.single j 1 := by
    intro j
    rw [hv, LinearMap.toMatrix'_mulVec]
    have := congrArg (fun f => f (b j)) hu
    simp only [LinearMap.comp_apply, Submodule.subtype_apply] at this
    rw [this]
    show b.equivFun (b j) = _
    funext i
    rw [Module.Basis.equivFun_self, Pi.single_apply]
    simp [eq_comm]
  ext i j
  have := congrFun (key j) i
  rw [Matrix.mulVec_mulVec] at this
  rw [Matrix.mul_apply]
  rw [Matrix.mulVec, dotProduct] at this
  simp only [Matrix.of_apply]
  rw [this, Matrix.one_apply, Pi.single_apply]

/-- If the entries of `M g` are polynomials in the draws and its rank reaches `r` for one outcome, it almost surely
does. -/
theorem rank_ae {Ω : Type*} [MeasurableSpace Ω] {P : Measure Ω} {g : Ω → Draw → ℝ} (hg : ContinuousDraws P g)
    {T : Finset Draw} (hT : Draw.Compatible T) {m n : ℕ} (M : (Draw → ℝ) → Matrix (Fin m) (Fin n) ℝ)
    (hM : ∀ i j, PolyOn T fun g => M g i j) (g0 : Draw → ℝ) : ∀ᵐ ω ∂P, (M g0).rank ≤ (M (g ω)).rank := by
  obtain ⟨U, V, hUV⟩ := exists_cut (M g0)
  have hp : PolyOn T fun g => (U * M g * V).det := by
    simp only [Matrix.det_apply']
    refine PolyOn.sum _ fun σ _ => (PolyOn.const _).mul (PolyOn.prod _ fun i _ => ?_)
    simp only [Matrix.mul_apply]
    exact PolyOn.sum _ fun j _ => (PolyOn.sum _ fun k _ => (PolyOn.const _).mul (hM k j)).mul (PolyOn.const _)
  refine (hp.ae_ne hg hT g0 (by rw [hUV]; simp)).mono fun ω hω => ?_
  have h1 : (U * M (g ω) * V).rank = (M g0).rank := by
    rw [Matrix.rank_of_isUnit]
    · simp
    · rw [Matrix.isUnit_iff_isUnit_det]; exact isUnit_iff_ne_zero.2 hω
  rw [← h1]
  exact ((U * M (g ω)).rank_mul_le_left V).trans (Matrix.rank_mul_le_right _ _)

/-- Rank from kernels. -/
theorem rank_eq_of_ker {l m n : ℕ} (B : Matrix (Fin l) (Fin n) ℝ) (A : Matrix (Fin m) (Fin n) ℝ)
    (h : ∀ y, B.mulVec y = 0 ↔ A.mulVec y = 0) : B.rank = A.rank := by
  have e : LinearMap.ker B.mulVecLin = LinearMap.ker A.mulVecLin := by
    ext y; simpa using h y
  have h1 := LinearMap.finrank_range_add_finrank_ker B.mulVecLin
  have h2 := LinearMap.finrank_range_add_finrank_ker A.mulVecLin
  rw [e] at h1
  unfold Matrix.rank
  omega

/-- A product with the same rank has the same kernel. -/
theorem ker_of_rank {l m n : ℕ} (L : Matrix (Fin l) (Fin m) ℝ) (A : Matrix (Fin m) (Fin n) ℝ)
    (h : A.rank ≤ (L * A).rank) (y : Fin n → ℝ) (hy : (L * A).mulVec y = 0) : A.mulVec y = 0 := by
  have hle : LinearMap.ker A.mulVecLin ≤ LinearMap.ker (L * A).mulVecLin := by
    intro z hz
    rw [LinearMap.mem_ker, Matrix.mulVecLin_apply] at hz ⊢
    rw [← Matrix.mulVec_mulVec, hz, Matrix.mulVec_zero]
  have h1 := LinearMap.finrank_range_add_finrank_ker (L * A).mulVecLin
  have h2 := LinearMap.finrank_range_add_finrank_ker A.mulVecLin
  have e := Submodule.eq_of_le_of_finrank_le hle (by unfold Matrix.rank at h; omega)
  have : y ∈ LinearMap.ker A.mulVecLin := by rw [e]; simpa using hy
  simpa using this

/-- A matrix of rank at most `r` can be compressed to `r` rows without changing its kernel. -/
theorem exists_compress {m n : Type*} [Fintype m] [Fintype n] [DecidableEq m] [DecidableEq n] (A : Matrix m n ℝ) {r : ℕ}
    (hr : A.rank ≤ r) : ∃ C : Matrix (Fin r) m ℝ, ∀ y, (C * A).mulVec y = 0 → A.mulVec y = 0 := by
  set W := LinearMap.range A.mulVecLin with hW
  have hfr : Module.finrank ℝ W = A.rank := rfl
  set b := Module.finBasisOfFinrankEq ℝ W hfr with hb
  obtain ⟨u, hu⟩ := LinearMap.exists_extend (b.equivFun.toLinearMap : W →ₗ[ℝ] Fin A.rank → ℝ)
  refine ⟨Matrix.of fun i k => if h : (i : ℕ) < A.rank then LinearMap.toMatrix' u ⟨i, h⟩ k else 0, fun y hy => ?_⟩
  have hin : A.mulVec y ∈ W := ⟨y, rfl⟩
  have h0 : u (A.mulVec y) = 0 := by
    funext i
    have := congrFun hy ⟨i, i.2.trans_le hr⟩
    rw [← Matrix.mulVec_mulVec, Matrix.mulVec, dotProduct] at this
    simp only [Matrix.of_apply, i.2, dif_pos, Fin.eta] at this
    rw [← LinearMap.toMatrix'_mulVec u]
    exact this
  have := congrArg (fun f => f ⟨A.mulVec y, hin⟩) hu
  simp only [LinearMap.comp_apply, Submodule.subtype_apply] at this
  rw [h0] at this
  have h1 : (⟨A.mulVec y, hin⟩ : W) = 0 := by
    apply b.equivFun.injective
    rw [map_zero]; exact this.symm
  exact congrArg Subtype.val h1

end TTS
