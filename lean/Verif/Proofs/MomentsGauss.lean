import Verif.Proofs.ProbGauss
import Verif.Spec.Moments
import Mathlib.Probability.Independence.InfinitePi

/-!
# Independent standard normal numbers meet `StandardDraws`
-/

namespace TTS

open MeasureTheory ProbabilityTheory

theorem normalDraws_map (x : Draw) : (normalDraws.map fun ω => ω x) = gaussianReal 0 1 :=
  Measure.infinitePi_map_eval (fun _ : Draw => gaussianReal 0 1) x

theorem normalDraws_standard : StandardDraws normalDraws fun ω x => ω x where
  prob := inferInstance
  measurable x := measurable_pi_apply x
  indep T _ := by
    have h : iIndepFun (fun (x : Draw) (ω : Draw → ℝ) => ω x) normalDraws :=
      iIndepFun_infinitePi (P := fun _ : Draw => gaussianReal 0 1) (X := fun _ ω => ω) (by fun_prop)
    exact h.precomp Subtype.val_injective
  square x := by
    have h : Integrable (fun y : ℝ => y ^ 2) (gaussianReal 0 1) := (memLp_id_gaussianReal 2).integrable_sq
    rw [← normalDraws_map x] at h
    exact h.comp_measurable (measurable_pi_apply x)
  mean x := by
    have h := integral_id_gaussianReal (μ := 0) (v := 1)
    rw [← normalDraws_map x, integral_map (measurable_pi_apply x).aemeasurable (by fun_prop)] at h
    exact h
  variance x := by
    have h := variance_fun_id_gaussianReal (μ := 0) (v := 1)
    rw [variance_eq_integral (by fun_prop), integral_id_gaussianReal] at h
    simp only [sub_zero] at h
    rw [← normalDraws_map x, integral_map (measurable_pi_apply x).aemeasurable (by fun_prop)] at h
    simpa using h

end TTS
