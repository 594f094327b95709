import Mathlib.MeasureTheory.Measure.Lebesgue.EqHaar
import Mathlib.MeasureTheory.Measure.Prod
import Mathlib.Algebra.MvPolynomial.Eval
import Mathlib.Algebra.Polynomial.Roots
import Mathlib.Topology.Algebra.MvPolynomial

/-!
# Zero sets of polynomials are Lebesgue null sets
-/

namespace TTS

open MeasureTheory

/-- A real polynomial in finitely many variables that does not vanish at one point vanishes only on a null set. -/
theorem poly_null {ι : Type*} [Fintype ι] (p : MvPolynomial ι ℝ) (w : ι → ℝ) (hw : MvPolynomial.eval w p ≠ 0) :
    volume {x : ι → ℝ | MvPolynomial.eval x p = 0} = 0 := by
  have hc : Continuous fun x : ι → ℝ => MvPolynomial.eval x p := MvPolynomial.continuous_eval p
  set S : Set (ℝ × (ι → ℝ)) := {z | MvPolynomial.eval (w + z.1 • z.2) p = 0} with hS
  have hSm : MeasurableSet S :=
    (isClosed_eq (hc.comp (continuous_const.add (continuous_fst.smul continuous_snd))) continuous_const).measurableSet
  -- along every line through `w` there are finitely many zeros
  have hline : ∀ x : ι → ℝ, volume {t : ℝ | MvPolynomial.eval (w + t • x) p = 0} = 0 := by
    intro x
    set q : Polynomial ℝ := MvPolynomial.eval₂ Polynomial.C
      (fun i => Polynomial.C (w i) + Polynomial.X * Polynomial.C (x i)) p with hq
    have he : ∀ t, q.eval t = MvPolynomial.eval (w + t • x) p := by
      intro t
      have : q.eval t = (Polynomial.evalRingHom t) q := rfl
      rw [this, hq, MvPolynomial.hom_eval₂]
      congr 1
      · ext; simp
      · funext i; simp; ring
    have hq0 : q ≠ 0 := by
      intro h
      apply hw
      have := he 0
      rw [h] at this
      simpa using this.symm
    refine Set.Finite.measure_zero ?_ _
    refine (q.roots.toFinset.finite_toSet).subset fun t ht => ?_
    simp only [Finset.mem_coe, Multiset.mem_toFinset]
    rw [Polynomial.mem_roots hq0, Polynomial.IsRoot, he]
    exact ht
  have h1 : (volume : Measure (ℝ × (ι → ℝ))) S = 0 := by
    rw [Measure.volume_eq_prod, ← Measure.prod_swap, Measure.map_apply measurable_swap hSm,
      Measure.measure_prod_null (measurable_swap hSm)]
    exact Filter.Eventually.of_forall fun x => hline x
  have h2 := (Measure.measure_prod_null (μ := (volume : Measure ℝ)) (ν := (volume : Measure (ι → ℝ))) hSm).1
    (by rw [← Measure.volume_eq_prod]; exact h1)
  have h3 : ∀ᵐ t : ℝ, t ≠ 0 := by
    rw [ae_iff]; simp
  obtain ⟨t, ht, ht0⟩ := (h2.and h3).exists
  have ht' : volume ((fun x : ι → ℝ => t • x) ⁻¹' ((fun x => w + x) ⁻¹' {x : ι → ℝ | MvPolynomial.eval x p = 0})) = 0 := ht
  rw [Measure.addHaar_preimage_smul _ ht0, measure_preimage_add] at ht'
  rcases mul_eq_zero.1 ht' with h | h
  · exfalso
    rw [ENNReal.ofReal_eq_zero] at h
    have : 0 < |(t ^ Module.finrank ℝ (ι → ℝ))⁻¹| := abs_pos.2 (inv_ne_zero (pow_ne_zero _ ht0))
    linarith
  · exact h

end TTS
