import Verif.Props.StreamErr

/-!
# C81: errors with high probability

From the mean squared errors of C72, C73 and C80.  `WithProb` is in `Spec/GaussErr.lean`.
-/

namespace TTS.Props

open TTS Finset MeasureTheory
open scoped ENNReal

variable {Ω : Type*} [MeasurableSpace Ω] {P : Measure Ω} {g : Ω → Draw → ℝ}

/-- **C81.** If the mean squared error is at most `v`, then the squared error is at most `v / δ` with probability at
least `1 - δ`. -/
theorem C81 {f : Ω → Except PyErr (TT ℝ)} {A : ND ℝ} {v : ℝ} (h : MeanErrSq P f A v) (hv : 0 ≤ v) {δ : ℝ} (hδ : 0 < δ) :
    WithProb P f A (v / δ) δ := by
  refine ⟨h.returns, ?_⟩
  obtain ⟨E, e1, e2, e3⟩ := h.mean
  rcases hv.eq_or_lt with rfl | hv
  · have h0 : ∀ᵐ ω ∂P, E ω = 0 := by
      have : ∫⁻ ω, E ω ∂P = 0 := by simpa using e2
      exact (lintegral_eq_zero_iff e1).1 this
    have : P {ω | ∃ Y, f ω = .ok Y ∧ 0 / δ < distSq A Y.toNumpy} = 0 := by
      refine measure_mono_null (t := {ω | ¬ ((∀ Y, f ω = .ok Y → ENNReal.ofReal (distSq A Y.toNumpy) ≤ E ω) ∧ E ω = 0)}) ?_
        ((e3.and h0))
      rintro ω ⟨Y, hY, hlt⟩ ⟨k1, k2⟩
      have := k1 Y hY
      rw [k2, nonpos_iff_eq_zero, ENNReal.ofReal_eq_zero] at this
      rw [zero_div] at hlt
      exact absurd this (not_le.2 hlt)
    rw [this]
    exact zero_le
  · have hpos : 0 < v / δ := div_pos hv hδ
    calc P {ω | ∃ Y, f ω = .ok Y ∧ v / δ < distSq A Y.toNumpy}
        ≤ P {ω | ENNReal.ofReal (v / δ) ≤ E ω} := by
          refine measure_mono_ae ?_
          filter_upwards [e3] with ω hω
          rintro ⟨Y, hY, hlt⟩
          exact (ENNReal.ofReal_le_ofReal hlt.le).trans (hω Y hY)
      _ ≤ (∫⁻ ω, E ω ∂P) / ENNReal.ofReal (v / δ) :=
          meas_ge_le_lintegral_div e1.aemeasurable (by simpa using hpos) ENNReal.ofReal_ne_top
      _ ≤ ENNReal.ofReal v / ENNReal.ofReal (v / δ) := ENNReal.div_le_div_right e2 _
      _ = ENNReal.ofReal δ := by
          rw [← ENNReal.ofReal_div_of_pos hpos]
          congr 1
          field_simp

/-- The terms of the bound of C72 are non-negative. -/
theorem tail_term (s : List ℝ) {k l : ℕ} (h : k + 2 ≤ l ∨ (s.length ≤ k ∧ k ≤ l)) :
    0 ≤ (1 + (k : ℝ) / ((l : ℝ) - k - 1)) * ∑ t ∈ Ico k s.length, s.getD t 0 ^ 2 := by
  rcases h with h | h
  · refine mul_nonneg ?_ (sum_nonneg fun _ _ => sq_nonneg _)
    have : (k : ℝ) + 2 ≤ l := by exact_mod_cast h
    have : 0 ≤ (k : ℝ) / ((l : ℝ) - k - 1) := div_nonneg (Nat.cast_nonneg _) (by linarith)
    linarith
  · rw [Ico_eq_empty (by omega), sum_empty, mul_zero]

theorem tail_term2 (s : List ℝ) {k l r : ℕ} (h : k + 2 ≤ l ∨ (s.length ≤ k ∧ k ≤ l)) (hr : l + 2 ≤ r) :
    0 ≤ (1 + (l : ℝ) / ((r : ℝ) - l - 1)) * ((1 + (k : ℝ) / ((l : ℝ) - k - 1)) * ∑ t ∈ Ico k s.length, s.getD t 0 ^ 2) := by
  refine mul_nonneg ?_ (tail_term s h)
  have : (l : ℝ) + 2 ≤ r := by exact_mod_cast hr
  have : 0 ≤ (l : ℝ) / ((r : ℝ) - l - 1) := div_nonneg (Nat.cast_nonneg _) (by linarith)
  linarith

/-- **C81, `hmt_sketch`.** -/
theorem C81_hmt (hg : GaussianDraws P g) (env : Env ℝ) (hE : LstsqContract env) (hQ : QRContract env) (X : Tensor ℝ)
    (rank : RankArg) (seed : Option ℕ) (hX : X.Valid) (hne : X.NonEmpty) (hd : 2 ≤ X.shape.length) (hdist : X.Distinct)
    (hx : ∀ t ∈ X.summands, t.RightExact) (hl : (ranksOf rank X.shape.length).length = X.shape.length - 1)
    (p1 : ∀ n ∈ X.shape, 0 < n) (p2 : ∀ r ∈ ranksOf rank X.shape.length, 0 < r) (hseed : seed.getD 0 < 2 ^ 32)
    (hsup : ∀ t ∈ X.summands, ∀ D : DRMData ℝ, D.kind = .denseGaussian → D.supports t = true)
    (S : ℕ → List ℝ) (hS : ∀ mu < X.shape.length - 1, Spec.IsSingularValues X.toNumpy (mu + 1) (S mu)) (k : ℕ → ℕ)
    (hk : ∀ mu < X.shape.length - 1, k mu + 2 ≤ (trimRanks X.shape (ranksOf rank X.shape.length)).getD mu 0 ∨
      ((S mu).length ≤ k mu ∧ k mu ≤ (trimRanks X.shape (ranksOf rank X.shape.length)).getD mu 0))
    {δ : ℝ} (hδ : 0 < δ) :
    WithProb P (fun ω => hmtSketch (env.withDraws (g ω)) X rank seed (some .denseGaussian)) X.toNumpy
      ((∑ mu ∈ range (X.shape.length - 1),
        (1 + (k mu : ℝ) / (((trimRanks X.shape (ranksOf rank X.shape.length)).getD mu 0 : ℝ) - k mu - 1))
          * ∑ t ∈ Ico (k mu) (S mu).length, (S mu).getD t 0 ^ 2) / δ) δ :=
  C81 (C72_svd hg env hE hQ X rank seed hX hne hd hdist hx hl p1 p2 hseed hsup S hS k hk) (sum_nonneg fun mu hmu => tail_term (S mu) (hk mu (mem_range.1 hmu))) hδ

/-- **C81, `hmt_sketch` of a dense array.** -/
theorem C81_hmt_dense (hg : GaussianDraws P g) (env : Env ℝ) (hE : LstsqContract env) (hQ : QRContract env) (X : ND ℝ)
    (rank : RankArg) (seed : Option ℕ) (hd : 2 ≤ X.shape.length)
    (hl : (ranksOf rank X.shape.length).length = X.shape.length - 1)
    (p1 : ∀ n ∈ X.shape, 0 < n) (p2 : ∀ r ∈ ranksOf rank X.shape.length, 0 < r) (hseed : seed.getD 0 < 2 ^ 32)
    (S : ℕ → List ℝ) (hS : ∀ mu < X.shape.length - 1, Spec.IsSingularValues X (mu + 1) (S mu)) (k : ℕ → ℕ)
    (hk : ∀ mu < X.shape.length - 1, k mu + 2 ≤ (trimRanks X.shape (ranksOf rank X.shape.length)).getD mu 0 ∨
      ((S mu).length ≤ k mu ∧ k mu ≤ (trimRanks X.shape (ranksOf rank X.shape.length)).getD mu 0))
    {δ : ℝ} (hδ : 0 < δ) :
    WithProb P (fun ω => hmtSketch (env.withDraws (g ω)) (.leaf (.dense X)) rank seed (some .denseGaussian)) X
      ((∑ mu ∈ range (X.shape.length - 1),
        (1 + (k mu : ℝ) / (((trimRanks X.shape (ranksOf rank X.shape.length)).getD mu 0 : ℝ) - k mu - 1))
          * ∑ t ∈ Ico (k mu) (S mu).length, (S mu).getD t 0 ^ 2) / δ) δ :=
  C81 (C72_dense_svd hg env hE hQ X rank seed hd hl p1 p2 hseed S hS k hk) (sum_nonneg fun mu hmu => tail_term (S mu) (hk mu (mem_range.1 hmu))) hδ

/-- **C81, `orthogonal_sketch`.** -/
theorem C81_orth (hg : GaussianDraws P g) (env : Env ℝ) (hE : MPContract env) (hQ : QRContract env) (X : Tensor ℝ)
    (lrank rrank : RankArg) (seed : Option ℕ) (hX : X.Valid) (hne : X.NonEmpty) (hd : 2 ≤ X.shape.length)
    (hdist : X.Distinct) (hx : ∀ t ∈ X.summands, t.RightExact)
    (hl : (ranksOf lrank X.shape.length).length = X.shape.length - 1)
    (hr : (ranksOf rrank X.shape.length).length = X.shape.length - 1)
    (ho : ∀ k < X.shape.length - 1, (ranksOf lrank X.shape.length).getD k 0 < (ranksOf rrank X.shape.length).getD k 0)
    (p1 : ∀ n ∈ X.shape, 0 < n) (p2 : ∀ r ∈ ranksOf lrank X.shape.length, 0 < r) (hseed : seed.getD 0 < 2 ^ 32)
    (hsup : ∀ t ∈ X.summands, ∀ D : DRMData ℝ, D.kind = .denseGaussian → D.supports t = true)
    (hap : env.StreamsApart X.shape (env.sketchSeed seed) (env.rightSeed (env.sketchSeed seed) X.shape.length))
    (S : ℕ → List ℝ) (hS : ∀ mu < X.shape.length - 1, Spec.IsSingularValues X.toNumpy (mu + 1) (S mu)) (k : ℕ → ℕ)
    (hk : ∀ mu < X.shape.length - 1, k mu + 2 ≤ (trimRanks X.shape (ranksOf lrank X.shape.length)).getD mu 0 ∨
      ((S mu).length ≤ k mu ∧ k mu ≤ (trimRanks X.shape (ranksOf lrank X.shape.length)).getD mu 0))
    (hover : ∀ mu < X.shape.length - 1, (trimRanks X.shape (ranksOf lrank X.shape.length)).getD mu 0 + 2
      ≤ (ranksOf rrank X.shape.length).getD mu 0)
    {δ : ℝ} (hδ : 0 < δ) :
    WithProb P (fun ω => (orthogonalSketch (env.withDraws (g ω)) X lrank rrank
        { seed := seed, leftType := some .denseGaussian, rightType := some .denseGaussian }).map Prod.fst) X.toNumpy
      ((∑ mu ∈ range (X.shape.length - 1),
        (1 + ((trimRanks X.shape (ranksOf lrank X.shape.length)).getD mu 0 : ℝ)
          / (((ranksOf rrank X.shape.length).getD mu 0 : ℝ) - (trimRanks X.shape (ranksOf lrank X.shape.length)).getD mu 0 - 1))
        * ((1 + (k mu : ℝ) / (((trimRanks X.shape (ranksOf lrank X.shape.length)).getD mu 0 : ℝ) - k mu - 1))
          * ∑ t ∈ Ico (k mu) (S mu).length, (S mu).getD t 0 ^ 2)) / δ) δ :=
  C81 (C73_svd hg env hE hQ X lrank rrank seed hX hne hd hdist hx hl hr ho p1 p2 hseed hsup hap S hS k hk hover) (sum_nonneg fun mu hmu => tail_term2 (S mu) (hk mu (mem_range.1 hmu)) (hover mu (mem_range.1 hmu))) hδ

/-- **C81, `orthogonal_sketch` of a dense array.** -/
theorem C81_orth_dense (hg : GaussianDraws P g) (env : Env ℝ) (hE : MPContract env) (hQ : QRContract env) (X : ND ℝ)
    (lrank rrank : RankArg) (seed : Option ℕ) (hd : 2 ≤ X.shape.length)
    (hl : (ranksOf lrank X.shape.length).length = X.shape.length - 1)
    (hr : (ranksOf rrank X.shape.length).length = X.shape.length - 1)
    (ho : ∀ k < X.shape.length - 1, (ranksOf lrank X.shape.length).getD k 0 < (ranksOf rrank X.shape.length).getD k 0)
    (p1 : ∀ n ∈ X.shape, 0 < n) (p2 : ∀ r ∈ ranksOf lrank X.shape.length, 0 < r) (hseed : seed.getD 0 < 2 ^ 32)
    (hap : env.StreamsApart X.shape (env.sketchSeed seed) (env.rightSeed (env.sketchSeed seed) X.shape.length))
    (S : ℕ → List ℝ) (hS : ∀ mu < X.shape.length - 1, Spec.IsSingularValues X (mu + 1) (S mu)) (k : ℕ → ℕ)
    (hk : ∀ mu < X.shape.length - 1, k mu + 2 ≤ (trimRanks X.shape (ranksOf lrank X.shape.length)).getD mu 0 ∨
      ((S mu).length ≤ k mu ∧ k mu ≤ (trimRanks X.shape (ranksOf lrank X.shape.length)).getD mu 0))
    (hover : ∀ mu < X.shape.length - 1, (trimRanks X.shape (ranksOf lrank X.shape.length)).getD mu 0 + 2
      ≤ (ranksOf rrank X.shape.length).getD mu 0)
    {δ : ℝ} (hδ : 0 < δ) :
    WithProb P (fun ω => (orthogonalSketch (env.withDraws (g ω)) (.leaf (.dense X)) lrank rrank
        { seed := seed, leftType := some .denseGaussian, rightType := some .denseGaussian }).map Prod.fst) X
      ((∑ mu ∈ range (X.shape.length - 1),
        (1 + ((trimRanks X.shape (ranksOf lrank X.shape.length)).getD mu 0 : ℝ)
          / (((ranksOf rrank X.shape.length).getD mu 0 : ℝ) - (trimRanks X.shape (ranksOf lrank X.shape.length)).getD mu 0 - 1))
        * ((1 + (k mu : ℝ) / (((trimRanks X.shape (ranksOf lrank X.shape.length)).getD mu 0 : ℝ) - k mu - 1))
          * ∑ t ∈ Ico (k mu) (S mu).length, (S mu).getD t 0 ^ 2)) / δ) δ :=
  C81 (C73_dense_svd hg env hE hQ X lrank rrank seed hd hl hr ho p1 p2 hseed hap S hS k hk hover) (sum_nonneg fun mu hmu => tail_term2 (S mu) (hk mu (mem_range.1 hmu)) (hover mu (mem_range.1 hmu))) hδ

/-- **C81, `stream_sketch`.** -/
theorem C81_stream (hg : GaussianDraws P g) (env : Env ℝ) (hE : MPContract env) (X : Tensor ℝ)
    (lrank rrank : RankArg) (seed : Option ℕ) (hX : X.Valid) (hne : X.NonEmpty) (hd : 2 ≤ X.shape.length)
    (hdist : X.Distinct) (hx : ∀ t ∈ X.summands, t.RightExact)
    (hl : (ranksOf lrank X.shape.length).length = X.shape.length - 1)
    (hr : (ranksOf rrank X.shape.length).length = X.shape.length - 1)
    (ho : ∀ k < X.shape.length - 1, (ranksOf lrank X.shape.length).getD k 0 < (ranksOf rrank X.shape.length).getD k 0)
    (hseed : seed.getD 0 < 2 ^ 32)
    (hsup : ∀ t ∈ X.summands, ∀ D : DRMData ℝ, D.kind = .denseGaussian → D.supports t = true)
    (hap : env.StreamsDistinct X.shape (env.sketchSeed seed) (env.rightSeed (env.sketchSeed seed) X.shape.length))
    (S : ℕ → List ℝ) (hS : ∀ mu < X.shape.length - 1, Spec.IsSingularValues X.toNumpy (mu + 1) (S mu)) (k : ℕ → ℕ)
    (hk : ∀ mu < X.shape.length - 1, k mu + 2 ≤ (trimRanks X.shape (ranksOf lrank X.shape.length)).getD mu 0 ∨
      ((S mu).length ≤ k mu ∧ k mu ≤ (trimRanks X.shape (ranksOf lrank X.shape.length)).getD mu 0))
    (hover : ∀ mu < X.shape.length - 1, (trimRanks X.shape (ranksOf lrank X.shape.length)).getD mu 0 + 2
      ≤ (ranksOf rrank X.shape.length).getD mu 0)
    {δ : ℝ} (hδ : 0 < δ) :
    WithProb P (fun ω => (streamSketch (env.withDraws (g ω)) X lrank rrank
        { seed := seed, leftType := some .denseGaussian, rightType := some .denseGaussian }).bind
          fun S => S.toTT (env.withDraws (g ω))) X.toNumpy
      (((∑ mu ∈ range (X.shape.length - 1), √((∏ nu ∈ Ico (mu + 1) (X.shape.length - 1),
          growth ((trimRanks X.shape (ranksOf lrank X.shape.length)).getD nu 0) ((ranksOf rrank X.shape.length).getD nu 0))
        * bondMean ((trimRanks X.shape (ranksOf lrank X.shape.length)).getD mu 0) ((ranksOf rrank X.shape.length).getD mu 0)
          (k mu) (∑ t ∈ Ico (k mu) (S mu).length, (S mu).getD t 0 ^ 2))) ^ 2) / δ) δ :=
  C81 (C80_svd hg env hE X lrank rrank seed hX hne hd hdist hx hl hr ho hseed hsup hap S hS k hk hover) (sq_nonneg _) hδ

/-- **C81, `stream_sketch` of a dense array.** -/
theorem C81_stream_dense (hg : GaussianDraws P g) (env : Env ℝ) (hE : MPContract env) (X : ND ℝ)
    (lrank rrank : RankArg) (seed : Option ℕ) (hd : 2 ≤ X.shape.length)
    (hl : (ranksOf lrank X.shape.length).length = X.shape.length - 1)
    (hr : (ranksOf rrank X.shape.length).length = X.shape.length - 1)
    (ho : ∀ k < X.shape.length - 1, (ranksOf lrank X.shape.length).getD k 0 < (ranksOf rrank X.shape.length).getD k 0)
    (hseed : seed.getD 0 < 2 ^ 32)
    (hap : env.StreamsDistinct X.shape (env.sketchSeed seed) (env.rightSeed (env.sketchSeed seed) X.shape.length))
    (S : ℕ → List ℝ) (hS : ∀ mu < X.shape.length - 1, Spec.IsSingularValues X (mu + 1) (S mu)) (k : ℕ → ℕ)
    (hk : ∀ mu < X.shape.length - 1, k mu + 2 ≤ (trimRanks X.shape (ranksOf lrank X.shape.length)).getD mu 0 ∨
      ((S mu).length ≤ k mu ∧ k mu ≤ (trimRanks X.shape (ranksOf lrank X.shape.length)).getD mu 0))
    (hover : ∀ mu < X.shape.length - 1, (trimRanks X.shape (ranksOf lrank X.shape.length)).getD mu 0 + 2
      ≤ (ranksOf rrank X.shape.length).getD mu 0)
    {δ : ℝ} (hδ : 0 < δ) :
    WithProb P (fun ω => (streamSketch (env.withDraws (g ω)) (.leaf (.dense X)) lrank rrank
        { seed := seed, leftType := some .denseGaussian, rightType := some .denseGaussian }).bind
          fun S => S.toTT (env.withDraws (g ω))) X
      (((∑ mu ∈ range (X.shape.length - 1), √((∏ nu ∈ Ico (mu + 1) (X.shape.length - 1),
          growth ((trimRanks X.shape (ranksOf lrank X.shape.length)).getD nu 0) ((ranksOf rrank X.shape.length).getD nu 0))
        * bondMean ((trimRanks X.shape (ranksOf lrank X.shape.length)).getD mu 0) ((ranksOf rrank X.shape.length).getD mu 0)
          (k mu) (∑ t ∈ Ico (k mu) (S mu).length, (S mu).getD t 0 ^ 2))) ^ 2) / δ) δ :=
  C81 (C80_dense_svd hg env hE X lrank rrank seed hd hl hr ho hseed hap S hS k hk hover) (sq_nonneg _) hδ

/-! ### Example

The `2 × 4 × 4` array of C72: except with probability a half, the squared error is at most twice the mean bound. -/

example : WithProb normalDraws (fun ω => hmtSketch (env61.withDraws ω) (.leaf (.dense x72)) (.int 3) (some 7)
    (some .denseGaussian)) x72 ((∑ mu ∈ range 2,
      (1 + (([2, 1].getD mu 0 : ℕ) : ℝ) / (((([2, 3] : List ℕ).getD mu 0 : ℕ) : ℝ) - ([2, 1].getD mu 0 : ℕ) - 1))
        * distSq x72 ([x72, b72].getD mu x72)) / 2⁻¹) 2⁻¹ :=
  C81 (C72_dense normalDraws_gaussian env61 (pinvChoice_contract rfl).lstsq (qrChoice_contract rfl) x72 (.int 3) (some 7) (by decide) rfl
    (by decide) (by decide) (by decide) (fun mu => [x72, b72].getD mu x72) (fun mu => [2, 1].getD mu 0)
    (two_cases x72_one b72_over))
    (sum_nonneg fun mu hmu => oversampled_term (two_cases (p := fun mu => Oversampled x72 ([x72, b72].getD mu x72) mu
      ([2, 1].getD mu 0) (([2, 3] : List ℕ).getD mu 0)) x72_one b72_over mu (mem_range.1 hmu))) (by norm_num)

end TTS.Props
