import Verif.Spec.Prob
import Mathlib.Probability.ProductMeasure
import Mathlib.Probability.Distributions.Gaussian.Real

/-!
# Independent standard normal numbers meet `ContinuousDraws`
-/

namespace TTS

open MeasureTheory ProbabilityTheory

theorem pi_ac_fin : ∀ (n : ℕ) (μ ν : Fin n → Measure ℝ) [∀ i, SigmaFinite (μ i)] [∀ i, SigmaFinite (ν i)],
    (∀ i, μ i ≪ ν i) → Measure.pi μ ≪ Measure.pi ν
  | 0, μ, ν, _, _, _ => by
    rw [Measure.pi_of_empty, Measure.pi_of_empty]
  | n + 1, μ, ν, _, _, h => by
    have ih := pi_ac_fin n (fun j => μ (Fin.succAbove 0 j)) (fun j => ν (Fin.succAbove 0 j)) fun j => h _
    have e1 := ((measurePreserving_piFinSuccAbove μ 0).symm _).map_eq
    have e2 := ((measurePreserving_piFinSuccAbove ν 0).symm _).map_eq
    rw [← e1, ← e2]
    exact (Measure.AbsolutelyContinuous.prod (h 0) ih).map (MeasurableEquiv.measurable _)

theorem pi_ac {ι : Type*} [Fintype ι] (μ ν : Measure ℝ) [SigmaFinite μ] [SigmaFinite ν] (h : μ ≪ ν) :
    Measure.pi (fun _ : ι => μ) ≪ Measure.pi (fun _ : ι => ν) := by
  have f := (Fintype.equivFin ι).symm
  have e1 := (measurePreserving_piCongrLeft (fun _ : ι => μ) f).map_eq
  have e2 := (measurePreserving_piCongrLeft (fun _ : ι => ν) f).map_eq
  rw [← e1, ← e2]
  exact (pi_ac_fin _ _ _ fun _ => h).map (MeasurableEquiv.measurable _)

/-- All draws independent and standard normal. -/
noncomputable def normalDraws : Measure (Draw → ℝ) := Measure.infinitePi fun _ => gaussianReal 0 1

instance : IsProbabilityMeasure normalDraws := by unfold normalDraws; infer_instance

theorem normalDraws_continuous : ContinuousDraws normalDraws fun ω x => ω x where
  measurable x := measurable_pi_apply x
  density T _ := by
    have : (normalDraws.map fun ω (x : T) => ω x) = Measure.pi fun _ : T => gaussianReal 0 1 :=
      Measure.infinitePi_map_restrict (fun _ : Draw => gaussianReal 0 1)
    rw [this]
    exact pi_ac _ _ (gaussianReal_absolutelyContinuous 0 one_ne_zero)

end TTS
