import Verif.Props.OrthErr
import Verif.Props.ProbMore
import Verif.Proofs.GaussDRM
import Verif.Spec.SvdVals

/-!
# C72: mean errors with dense Gaussian DRMs

`GaussianDraws`, `MeanErrSq` and `Oversampled` are in `Spec/GaussErr.lean`.
-/

namespace TTS.Props

open TTS Finset MeasureTheory
open scoped ENNReal

variable {Ω : Type*} [MeasurableSpace Ω] {P : Measure Ω} {g : Ω → Draw → ℝ}

theorem distSq_nonneg' (A B : ND ℝ) : 0 ≤ distSq A B := by
  rw [distSq_fsq A B 0]
  exact fsq_nonneg _

theorem oversampled_term {A B : ND ℝ} {mu k l : ℕ} (h : Oversampled A B mu k l) :
    0 ≤ (1 + (k : ℝ) / ((l : ℝ) - k - 1)) * distSq A B := by
  rcases h.size with h | ⟨rfl, -⟩
  · exact mul_nonneg (by linarith [ratio_nonneg h]) (distSq_nonneg' _ _)
  · have : distSq B B = 0 := by
      unfold distSq
      exact sumIdx_eq_zero fun i _ => by rw [sub_self]; norm_num
    rw [this, mul_zero]

/-- the errors of the bonds together -/
theorem bonds_mean (hg : GaussianDraws P g) {A : ND ℝ} {R : (Draw → ℝ) → Mats ℝ} {r : List ℕ} {s : ℕ → ℕ}
    (hR : GaussRight R A.shape r s) (B : ℕ → ND ℝ) (k : ℕ → ℕ)
    (hB : ∀ mu < A.shape.length - 1, Oversampled A (B mu) mu (k mu) (r.getD mu 0)) :
    ∃ E : Ω → ℝ≥0∞, Measurable E ∧
      ∫⁻ ω, E ω ∂P ≤ ENNReal.ofReal (∑ mu ∈ range (A.shape.length - 1),
        (1 + (k mu : ℝ) / ((r.getD mu 0 : ℝ) - k mu - 1)) * distSq A (B mu)) ∧
      ∀ᵐ ω ∂P, ∃ C : ℕ → ℕ → List ℕ → ℝ, ENNReal.ofReal (∑ mu ∈ range (A.shape.length - 1),
        rangeErrSq A (R (g ω)) (mu + 1) (r.getD mu 0) (C mu)) ≤ E ω := by
  have h : ∀ mu, ∃ E : Ω → ℝ≥0∞, mu < A.shape.length - 1 → Measurable E ∧
      ∫⁻ ω, E ω ∂P ≤ ENNReal.ofReal ((1 + (k mu : ℝ) / ((r.getD mu 0 : ℝ) - k mu - 1)) * distSq A (B mu)) ∧
      ∀ᵐ ω ∂P, ∃ C, ENNReal.ofReal (rangeErrSq A (R (g ω)) (mu + 1) (r.getD mu 0) C) ≤ E ω := by
    intro mu
    by_cases hmu : mu < A.shape.length - 1
    · obtain ⟨E, h⟩ := bond_mean hg hR hmu (hB mu hmu)
      exact ⟨E, fun _ => h⟩
    · exact ⟨fun _ => 0, fun h => absurd h hmu⟩
  choose E hE using h
  refine ⟨fun ω => ∑ mu ∈ range (A.shape.length - 1), E mu ω,
    Finset.measurable_sum _ fun mu hmu => (hE mu (mem_range.1 hmu)).1, ?_, ?_⟩
  · rw [lintegral_finsetSum' _ fun mu hmu => (hE mu (mem_range.1 hmu)).1.aemeasurable,
      ENNReal.ofReal_sum_of_nonneg fun mu hmu => oversampled_term (hB mu (mem_range.1 hmu))]
    exact sum_le_sum fun mu hmu => (hE mu (mem_range.1 hmu)).2.1
  · have : ∀ᵐ ω ∂P, ∀ mu, mu < A.shape.length - 1 →
        ∃ C, ENNReal.ofReal (rangeErrSq A (R (g ω)) (mu + 1) (r.getD mu 0) C) ≤ E mu ω := by
      rw [ae_all_iff]
      intro mu
      rw [Filter.eventually_imp_distrib_left]
      exact fun hmu => (hE mu hmu).2.2
    filter_upwards [this] with ω hω
    have hC : ∀ mu, ∃ C, mu < A.shape.length - 1 →
        ENNReal.ofReal (rangeErrSq A (R (g ω)) (mu + 1) (r.getD mu 0) C) ≤ E mu ω := by
      intro mu
      by_cases hmu : mu < A.shape.length - 1
      · obtain ⟨C, h⟩ := hω mu hmu
        exact ⟨C, fun _ => h⟩
      · exact ⟨fun _ _ => 0, fun h => absurd h hmu⟩
    choose C hC using hC
    refine ⟨C, ?_⟩
    rw [ENNReal.ofReal_sum_of_nonneg fun mu _ => show 0 ≤ rangeErrSq _ _ _ _ _ from sumIdx_nonneg fun i => sq_nonneg _]
    exact sum_le_sum fun mu hmu => hC mu (mem_range.1 hmu)

/-- **C72.** `hmt_sketch` with a dense Gaussian DRM and independent standard normal draws: whatever arrays `B_mu` whose
`mu`-th unfolding has rank at most `k_mu` one compares with, the mean squared error is at most
`∑ (1 + k_mu / (l_mu - k_mu - 1)) ‖X - B_mu‖²`, where `l_mu` are the ranks of the sketch. -/
theorem C72 (hg : GaussianDraws P g) (env : Env ℝ) (hE : LstsqContract env) (hQ : QRContract env) (X : Tensor ℝ)
    (rank : RankArg) (seed : Option ℕ) (hX : X.Valid) (hne : X.NonEmpty) (hd : 2 ≤ X.shape.length) (hdist : X.Distinct)
    (hx : ∀ t ∈ X.summands, t.RightExact) (hl : (ranksOf rank X.shape.length).length = X.shape.length - 1)
    (p1 : ∀ n ∈ X.shape, 0 < n) (p2 : ∀ r ∈ ranksOf rank X.shape.length, 0 < r) (hseed : seed.getD 0 < 2 ^ 32)
    (hsup : ∀ t ∈ X.summands, ∀ D : DRMData ℝ, D.kind = .denseGaussian → D.supports t = true)
    (B : ℕ → ND ℝ) (k : ℕ → ℕ)
    (hB : ∀ mu < X.shape.length - 1, Oversampled X.toNumpy (B mu) mu (k mu)
      ((trimRanks X.shape (ranksOf rank X.shape.length)).getD mu 0)) :
    MeanErrSq P (fun ω => hmtSketch (env.withDraws (g ω)) X rank seed (some .denseGaussian)) X.toNumpy
      (∑ mu ∈ range (X.shape.length - 1),
        (1 + (k mu : ℝ) / (((trimRanks X.shape (ranksOf rank X.shape.length)).getD mu 0 : ℝ) - k mu - 1))
          * distSq X.toNumpy (B mu)) := by
  have hsh := Tensor.toNumpy_shape hX
  have hlen := usedRanks_length (rank := rank) true (show 1 ≤ X.shape.length by omega) hl
  refine ⟨fun ω => C42_success (env.withDraws (g ω)) hE hQ X rank seed _ hX hd hdist hx hl p1 p2 hseed hsup, ?_⟩
  have hR := rightMats_gauss env X.shape (usedRanks X.shape rank true) (env.sketchSeed seed) hlen
  rw [← hsh] at hR
  obtain ⟨E, e1, e2, e3⟩ := bonds_mean hg hR B k (by rw [hsh]; exact hB)
  rw [hsh] at e2 e3
  refine ⟨E, e1, e2, ?_⟩
  filter_upwards [e3] with ω hω Y hY
  obtain ⟨C, hC⟩ := hω
  refine le_trans (ENNReal.ofReal_le_ofReal ?_) hC
  have hD := hmt_drm (env.withDraws (g ω)) seed (some .denseGaussian) hd hl hseed
  have hg' : ∀ D : DRM ℝ, (none : Option (DRM ℝ)) = some D → D.WF ∧ D.toDRMBase.Full ∧ D.transpose = true := by
    intro D hD; cases hD
  set D := madeDRM (env.withDraws (g ω)) ((some .denseGaussian : Option DRMKind).getD .tensorTrain) X.shape true
    ((env.withDraws (g ω)).sketchSeed seed) (usedRanks X.shape rank true) with hDdef
  have eR : D.rank.reverse = usedRanks X.shape rank true := by
    rw [hDdef, made_rank _ _ _ _ _ _ hlen]
    show List.reverse (List.reverse _) = _
    rw [List.reverse_reverse]
  have := C62_hmt (env.withDraws (g ω)) hE hQ X rank seed _ none false Y D hg' hX hne hd hdist hx p1
    (fun r hr => used_pos (by omega) hl p1 p2 r (by rw [← eR]; simpa using hr)) hD hY C
  rw [eR, hDdef] at this
  exact this

/-- **C72, dense arrays** with any number of modes. -/
theorem C72_dense (hg : GaussianDraws P g) (env : Env ℝ) (hE : LstsqContract env) (hQ : QRContract env) (X : ND ℝ)
    (rank : RankArg) (seed : Option ℕ) (hd : 2 ≤ X.shape.length)
    (hl : (ranksOf rank X.shape.length).length = X.shape.length - 1)
    (p1 : ∀ n ∈ X.shape, 0 < n) (p2 : ∀ r ∈ ranksOf rank X.shape.length, 0 < r) (hseed : seed.getD 0 < 2 ^ 32)
    (B : ℕ → ND ℝ) (k : ℕ → ℕ)
    (hB : ∀ mu < X.shape.length - 1, Oversampled X (B mu) mu (k mu)
      ((trimRanks X.shape (ranksOf rank X.shape.length)).getD mu 0)) :
    MeanErrSq P (fun ω => hmtSketch (env.withDraws (g ω)) (.leaf (.dense X)) rank seed (some .denseGaussian)) X
      (∑ mu ∈ range (X.shape.length - 1),
        (1 + (k mu : ℝ) / (((trimRanks X.shape (ranksOf rank X.shape.length)).getD mu 0 : ℝ) - k mu - 1))
          * distSq X (B mu)) := by
  have hlen := usedRanks_length (rank := rank) true (show 1 ≤ X.shape.length by omega) hl
  refine ⟨fun ω => C42_success_dense (env.withDraws (g ω)) hE hQ X rank seed (some .denseGaussian) hd hl p1 p2 hseed
    (by intro D hD; cases D <;> simp [DRMData.kind] at hD; rfl), ?_⟩
  have hR := rightMatsDense_gauss env X.shape (usedRanks X.shape rank true) (env.sketchSeed seed) hlen
  obtain ⟨E, e1, e2, e3⟩ := bonds_mean hg hR B k hB
  refine ⟨E, e1, e2, ?_⟩
  filter_upwards [e3] with ω hω Y hY
  obtain ⟨C, hC⟩ := hω
  refine le_trans (ENNReal.ofReal_le_ofReal ?_) hC
  have hD := hmt_drm (env.withDraws (g ω)) (shape := X.shape) seed (some .denseGaussian) hd hl hseed
  have hg' : ∀ D : DRM ℝ, (none : Option (DRM ℝ)) = some D → D.WF ∧ D.toDRMBase.Full ∧ D.transpose = true := by
    intro D hD; cases hD
  set D := madeDRM (env.withDraws (g ω)) ((some .denseGaussian : Option DRMKind).getD .tensorTrain) X.shape true
    ((env.withDraws (g ω)).sketchSeed seed) (usedRanks X.shape rank true) with hDdef
  have eR : D.rank.reverse = usedRanks X.shape rank true := by
    rw [hDdef, made_rank _ _ _ _ _ _ hlen]
    show List.reverse (List.reverse _) = _
    rw [List.reverse_reverse]
  have := C62_hmt_dense (env.withDraws (g ω)) hE hQ X rank seed _ none false Y D hg' hd p1
    (fun r hr => used_pos (by omega) hl p1 p2 r (by rw [← eR]; simpa using hr)) hD hY C
  rw [eR, hDdef] at this
  exact this

/-- **C72, tails.** By Markov's inequality large errors are rare: the probability that the squared error is at least `t`
is at most `v / t`. -/
theorem C72_tail {f : Ω → Except PyErr (TT ℝ)} {A : ND ℝ} {v : ℝ} (h : MeanErrSq P f A v) {t : ℝ} (ht : 0 < t) :
    P {ω | ∀ Y, f ω = .ok Y → t ≤ distSq A Y.toNumpy} ≤ ENNReal.ofReal (v / t) := by
  obtain ⟨E, e1, e2, e3⟩ := h.mean
  have h1 : P {ω | ENNReal.ofReal t ≤ E ω} ≤ (∫⁻ ω, E ω ∂P) / ENNReal.ofReal t :=
    meas_ge_le_lintegral_div e1.aemeasurable (by simpa using ht) ENNReal.ofReal_ne_top
  have h2 : P {ω | ∀ Y, f ω = .ok Y → t ≤ distSq A Y.toNumpy} ≤ P {ω | ENNReal.ofReal t ≤ E ω} := by
    refine measure_mono_ae ?_
    filter_upwards [e3] with ω hω hm
    obtain ⟨Y, hY⟩ := h.returns ω
    exact (ENNReal.ofReal_le_ofReal (hm Y hY)).trans (hω Y hY)
  refine h2.trans (h1.trans ?_)
  rw [ENNReal.ofReal_div_of_pos ht]
  exact ENNReal.div_le_div_right e2 _

/-! ### Singular values -/

theorem sumIdx_sep (sh : List ℕ) {m : ℕ} (hm : m ≤ sh.length) (c : ℝ) (a b : List ℕ → ℝ) :
    sumIdx sh (fun i => c * (a (i.take m) * b (i.drop m))) = c * (sumIdx (sh.take m) a * sumIdx (sh.drop m) b) := by
  conv_lhs => rw [← List.take_append_drop m sh]
  rw [sumIdx_append, sumIdx_mul, mul_sumIdx]
  refine sumIdx_congr fun i hi => ?_
  have hl : i.length = m := by rw [hi.length, List.length_take]; omega
  rw [mul_sumIdx, mul_sumIdx]
  exact sumIdx_congr fun j _ => by rw [List.take_left' hl, List.drop_left' hl]

/-- Cutting the singular value decomposition of an unfolding after `k` terms. -/
theorem svd_oversampled {A : ND ℝ} {mu k l : ℕ} {S : List ℝ} (hmu : mu < A.shape.length - 1)
    (hS : Spec.IsSingularValues A (mu + 1) S) (hk : k + 2 ≤ l ∨ (S.length ≤ k ∧ k ≤ l)) :
    ∃ B, Oversampled A B mu k l ∧ distSq A B = ∑ t ∈ Ico k S.length, S.getD t 0 ^ 2 := by
  obtain ⟨-, -, u, v, hu, hv, hA⟩ := hS
  have key : ∀ i, InR A.shape i → A.get i = ∑ t ∈ range S.length, u t (i.take (mu + 1)) * S.getD t 0 * v t (i.drop (mu + 1)) := by
    intro i hi
    have := hA _ _ (hi.take (mu + 1)) (hi.drop (mu + 1))
    rwa [List.take_append_drop] at this
  rcases hk with hk | ⟨hk, hkl⟩
  · refine ⟨ND.ofFn A.shape fun i => ∑ t ∈ range (min k S.length), u t (i.take (mu + 1)) * S.getD t 0 * v t (i.drop (mu + 1)),
      ⟨rfl, ?_, .inl hk⟩, ?_⟩
    · refine (Splits.rank_le (A := ND.ofFn A.shape _) (r := min k S.length)
        ⟨fun p t => u t p, fun q t => S.getD t 0 * v t q, ?_⟩ (show mu + 1 ≤ A.shape.length by omega)).trans (min_le_left _ _)
      intro p q hp hi
      rw [ND.ofFn_get (show InR A.shape (p ++ q) from hi), List.take_left' hp, List.drop_left' hp]
      exact sum_congr rfl fun t _ => mul_assoc _ _ _
    · have e : ∀ i, InR A.shape i → (A.get i - (ND.ofFn A.shape fun i => ∑ t ∈ range (min k S.length),
          u t (i.take (mu + 1)) * S.getD t 0 * v t (i.drop (mu + 1))).get i) ^ 2
          = ∑ t ∈ Ico k S.length, ∑ s ∈ Ico k S.length, (S.getD t 0 * S.getD s 0) *
            ((u t (i.take (mu + 1)) * u s (i.take (mu + 1))) * (v t (i.drop (mu + 1)) * v s (i.drop (mu + 1)))) := by
        intro i hi
        rw [ND.ofFn_get hi, key i hi]
        have h1 : ∑ t ∈ range S.length, u t (i.take (mu + 1)) * S.getD t 0 * v t (i.drop (mu + 1))
            - ∑ t ∈ range (min k S.length), u t (i.take (mu + 1)) * S.getD t 0 * v t (i.drop (mu + 1))
            = ∑ t ∈ Ico k S.length, u t (i.take (mu + 1)) * S.getD t 0 * v t (i.drop (mu + 1)) := by
          rw [← Finset.sum_Ico_eq_sub _ (min_le_right _ _)]
          rcases le_total k S.length with h | h
          · rw [min_eq_left h]
          · rw [min_eq_right h, Ico_self, Ico_eq_empty (by omega)]
        rw [h1, sq, sum_mul_sum]
        exact sum_congr rfl fun t _ => sum_congr rfl fun s _ => by ring
      unfold distSq
      rw [sumIdx_congr e, sumIdx_sum]
      refine sum_congr rfl fun t ht => ?_
      rw [sumIdx_sum, sum_eq_single t]
      · rw [sumIdx_sep _ (show mu + 1 ≤ A.shape.length by omega) _ (fun p => u t p * u t p) (fun q => v t q * v t q),
          hu t (mem_Ico.1 ht).2 t (mem_Ico.1 ht).2, if_pos rfl,
          hv t (mem_Ico.1 ht).2 t (mem_Ico.1 ht).2, if_pos rfl]
        ring
      · intro s hs hst
        rw [sumIdx_sep _ (show mu + 1 ≤ A.shape.length by omega) _ (fun p => u t p * u s p) (fun q => v t q * v s q),
          hu t (mem_Ico.1 ht).2 s (mem_Ico.1 hs).2,
          if_neg (Ne.symm hst)]
        ring
      · exact fun h => absurd ht h
  · refine ⟨A, ⟨rfl, ?_, .inr ⟨rfl, hkl⟩⟩, ?_⟩
    · refine (Splits.rank_le (r := S.length) ⟨fun p t => u t p, fun q t => S.getD t 0 * v t q, ?_⟩
        (show mu + 1 ≤ A.shape.length by omega)).trans hk
      intro p q hp hi
      rw [key _ hi, List.take_left' hp, List.drop_left' hp]
      exact sum_congr rfl fun t _ => mul_assoc _ _ _
    · rw [Ico_eq_empty (by omega), sum_empty]
      unfold distSq
      exact sumIdx_eq_zero fun i _ => by rw [sub_self]; norm_num

/-- the best choices of `B` -/
theorem svd_bonds {A : ND ℝ} {S : ℕ → List ℝ} {k : ℕ → ℕ} {l : List ℕ}
    (hS : ∀ mu < A.shape.length - 1, Spec.IsSingularValues A (mu + 1) (S mu))
    (hk : ∀ mu < A.shape.length - 1, k mu + 2 ≤ l.getD mu 0 ∨ ((S mu).length ≤ k mu ∧ k mu ≤ l.getD mu 0)) :
    ∃ B : ℕ → ND ℝ, (∀ mu < A.shape.length - 1, Oversampled A (B mu) mu (k mu) (l.getD mu 0)) ∧
      ∀ mu < A.shape.length - 1, distSq A (B mu) = ∑ t ∈ Ico (k mu) (S mu).length, (S mu).getD t 0 ^ 2 := by
  have : ∀ mu, ∃ B, mu < A.shape.length - 1 → Oversampled A B mu (k mu) (l.getD mu 0) ∧
      distSq A B = ∑ t ∈ Ico (k mu) (S mu).length, (S mu).getD t 0 ^ 2 := by
    intro mu
    by_cases hmu : mu < A.shape.length - 1
    · obtain ⟨B, h⟩ := svd_oversampled hmu (hS mu hmu) (hk mu hmu)
      exact ⟨B, fun _ => h⟩
    · exact ⟨A, fun h => absurd h hmu⟩
  choose B hB using this
  exact ⟨B, fun mu hmu => (hB mu hmu).1, fun mu hmu => (hB mu hmu).2⟩

/-- **C72, in terms of singular values.** The mean squared error of `hmt_sketch` is at most the sum over the bonds of
`1 + k / (l - k - 1)` times the sum of the squares of the singular values of the unfolding after the first `k`. -/
theorem C72_svd (hg : GaussianDraws P g) (env : Env ℝ) (hE : LstsqContract env) (hQ : QRContract env) (X : Tensor ℝ)
    (rank : RankArg) (seed : Option ℕ) (hX : X.Valid) (hne : X.NonEmpty) (hd : 2 ≤ X.shape.length) (hdist : X.Distinct)
    (hx : ∀ t ∈ X.summands, t.RightExact) (hl : (ranksOf rank X.shape.length).length = X.shape.length - 1)
    (p1 : ∀ n ∈ X.shape, 0 < n) (p2 : ∀ r ∈ ranksOf rank X.shape.length, 0 < r) (hseed : seed.getD 0 < 2 ^ 32)
    (hsup : ∀ t ∈ X.summands, ∀ D : DRMData ℝ, D.kind = .denseGaussian → D.supports t = true)
    (S : ℕ → List ℝ) (hS : ∀ mu < X.shape.length - 1, Spec.IsSingularValues X.toNumpy (mu + 1) (S mu)) (k : ℕ → ℕ)
    (hk : ∀ mu < X.shape.length - 1, k mu + 2 ≤ (trimRanks X.shape (ranksOf rank X.shape.length)).getD mu 0 ∨
      ((S mu).length ≤ k mu ∧ k mu ≤ (trimRanks X.shape (ranksOf rank X.shape.length)).getD mu 0)) :
    MeanErrSq P (fun ω => hmtSketch (env.withDraws (g ω)) X rank seed (some .denseGaussian)) X.toNumpy
      (∑ mu ∈ range (X.shape.length - 1),
        (1 + (k mu : ℝ) / (((trimRanks X.shape (ranksOf rank X.shape.length)).getD mu 0 : ℝ) - k mu - 1))
          * ∑ t ∈ Ico (k mu) (S mu).length, (S mu).getD t 0 ^ 2) := by
  have hsh := Tensor.toNumpy_shape hX
  obtain ⟨B, b1, b2⟩ := svd_bonds (A := X.toNumpy) (by rw [hsh]; exact hS) (by rw [hsh]; exact hk)
  rw [hsh] at b1 b2
  have := C72 hg env hE hQ X rank seed hX hne hd hdist hx hl p1 p2 hseed hsup B k b1
  rwa [sum_congr rfl fun mu hmu => by rw [b2 mu (mem_range.1 hmu)]] at this

/-- **C72, in terms of singular values, dense arrays.** -/
theorem C72_dense_svd (hg : GaussianDraws P g) (env : Env ℝ) (hE : LstsqContract env) (hQ : QRContract env) (X : ND ℝ)
    (rank : RankArg) (seed : Option ℕ) (hd : 2 ≤ X.shape.length)
    (hl : (ranksOf rank X.shape.length).length = X.shape.length - 1)
    (p1 : ∀ n ∈ X.shape, 0 < n) (p2 : ∀ r ∈ ranksOf rank X.shape.length, 0 < r) (hseed : seed.getD 0 < 2 ^ 32)
    (S : ℕ → List ℝ) (hS : ∀ mu < X.shape.length - 1, Spec.IsSingularValues X (mu + 1) (S mu)) (k : ℕ → ℕ)
    (hk : ∀ mu < X.shape.length - 1, k mu + 2 ≤ (trimRanks X.shape (ranksOf rank X.shape.length)).getD mu 0 ∨
      ((S mu).length ≤ k mu ∧ k mu ≤ (trimRanks X.shape (ranksOf rank X.shape.length)).getD mu 0)) :
    MeanErrSq P (fun ω => hmtSketch (env.withDraws (g ω)) (.leaf (.dense X)) rank seed (some .denseGaussian)) X
      (∑ mu ∈ range (X.shape.length - 1),
        (1 + (k mu : ℝ) / (((trimRanks X.shape (ranksOf rank X.shape.length)).getD mu 0 : ℝ) - k mu - 1))
          * ∑ t ∈ Ico (k mu) (S mu).length, (S mu).getD t 0 ^ 2) := by
  obtain ⟨B, b1, b2⟩ := svd_bonds hS hk
  have := C72_dense hg env hE hQ X rank seed hd hl p1 p2 hseed B k b1
  rwa [sum_congr rfl fun mu hmu => by rw [b2 mu (mem_range.1 hmu)]] at this

/-! ### Example

A `2 × 4 × 4` array sketched with rank three (trimmed to `[2, 3]`): the first bond is exact, the second is compared with
the array `B`, whose last unfolding has rank one. -/

noncomputable def x72 : ND ℝ := ND.ofFn [2, 4, 4] fun i => 1 / ((i.getD 0 0 + i.getD 1 0 + i.getD 2 0 + 1 : ℕ) : ℝ)

noncomputable def b72 : ND ℝ := ND.ofFn [2, 4, 4] fun i => 1 / (((i.getD 0 0 + i.getD 1 0 + 1) * (i.getD 2 0 + 1) : ℕ) : ℝ)

theorem x72_one : Oversampled x72 x72 0 2 2 := by
  refine ⟨rfl, ?_, .inr ⟨rfl, le_rfl⟩⟩
  refine (Matrix.rank_le_height _).trans ?_
  decide

theorem b72_over : Oversampled x72 b72 1 1 3 := by
  refine ⟨rfl, ?_, .inl le_rfl⟩
  refine Splits.rank_le ⟨fun p _ => 1 / ((p.getD 0 0 + p.getD 1 0 + 1 : ℕ) : ℝ), fun q _ => 1 / ((q.getD 0 0 + 1 : ℕ) : ℝ), ?_⟩
    (by decide)
  intro p q hp hi
  rw [b72, ND.ofFn_get (show InR [2, 4, 4] (p ++ q) from hi), sum_range_one]
  match p, hp with
  | [a, b], _ =>
    match q, hi with
    | [], hi => exact absurd hi.2.2 (by simp)
    | c :: q, _ =>
      show 1 / (((a + b + 1) * (c + 1) : ℕ) : ℝ) = 1 / ((a + b + 1 : ℕ) : ℝ) * (1 / ((c + 1 : ℕ) : ℝ))
      rw [Nat.cast_mul, one_div, mul_inv, one_div, one_div]

example : MeanErrSq normalDraws (fun ω => hmtSketch (env61.withDraws ω) (.leaf (.dense x72)) (.int 3) (some 7)
    (some .denseGaussian)) x72 (∑ mu ∈ range 2,
      (1 + (([2, 1].getD mu 0 : ℕ) : ℝ) / (((([2, 3] : List ℕ).getD mu 0 : ℕ) : ℝ) - ([2, 1].getD mu 0 : ℕ) - 1))
        * distSq x72 ([x72, b72].getD mu x72)) :=
  C72_dense normalDraws_gaussian env61 (pinvChoice_contract rfl).lstsq (qrChoice_contract rfl) x72 (.int 3) (some 7) (by decide) rfl
    (by decide) (by decide) (by decide) (fun mu => [x72, b72].getD mu x72) (fun mu => [2, 1].getD mu 0)
    (two_cases x72_one b72_over)

end TTS.Props
