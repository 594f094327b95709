import Verif.Proofs.GaussDRM
import Verif.Proofs.GaussNystrom

/-!
# Mean errors of the bonds of two-sided Gaussian sketches
-/

namespace TTS

open Finset MeasureTheory ProbabilityTheory Props Matrix
open scoped ENNReal

variable {Ω : Type*} [MeasurableSpace Ω] {P : Measure Ω} {g : Ω → Draw → ℝ}

/-- Left sketching matrices with independent standard normal entries: bond `k` uses the generator with seed `s k`. -/
def GaussLeft (L : (Draw → ℝ) → Mats ℝ) (sh l : List ℕ) (s : ℕ → ℕ) : Prop :=
  ∀ k < sh.length - 1, ∀ g (i : Fin (sh.take (k + 1)).prod), ∀ a < l.getD k 0,
    L g (k + 1) (unravel (sh.take (k + 1)) i) a = g (.stream (s k) (a * (sh.take (k + 1)).prod + i))

/-- seed of the generator for bond `k` of a left dense Gaussian DRM -/
def leftStream (env : Env ℝ) (sh : List ℕ) (seed k : ℕ) : ℕ :=
  (seed % (2 ^ 32 - 1) + env.seedOffset (some seed) (sh.take (k + 1)).prod) % (2 ^ 32 - 1)

theorem leftMats_gauss (env : Env ℝ) (sh l : List ℕ) (seed : ℕ) :
    GaussLeft (fun g => (madeDRM (env.withDraws g) .denseGaussian sh false seed l).leftMats (env.withDraws g)) sh l
      (leftStream env sh seed) := by
  intro k hk g i a ha
  have hs := made_dense_entry' env sh false seed l k hk g (unravel (sh.take (k + 1)) i) a (unravel_inR i.2) ha
  show (if k + 1 = 0 then 1 else _) = _
  rw [if_neg (by omega)]
  refine hs.trans ?_
  show g (.stream _ (a * (sh.take (k + 1)).prod + ravel (sh.take (k + 1)) (unravel (sh.take (k + 1)) i))) = _
  rw [ravel_unravel i.2]
  rfl

/-- the matrix of a left sketch -/
def leftMat (sh : List ℕ) (L : Mats ℝ) (k l : ℕ) : Matrix (Fin l) (Fin (sh.take k).prod) ℝ :=
  Matrix.of fun a i => L k (unravel (sh.take k) i) a

theorem leftSketch_mat (A : ND ℝ) (L : Mats ℝ) (k l : ℕ) (a : Fin l) (j : Fin (A.shape.drop k).prod) :
    leftSketch A L k a (unravel (A.shape.drop k) j) = (leftMat A.shape L k l * A.unfolding k) a j := by
  rw [leftSketch, sumIdx_fin, Matrix.mul_apply]
  rfl

theorem omegaMat_mat (A : ND ℝ) (L R : Mats ℝ) (mu l r : ℕ) :
    omegaMat A L R mu l r = leftMat A.shape L (mu + 1) l * A.unfolding (mu + 1) * rightMat A.shape R (mu + 1) r := by
  ext a b
  rw [Matrix.mul_apply]
  show omegaSpec A.shape A.get L R mu a b = _
  rw [omegaSpec_left, sumIdx_fin]
  refine sum_congr rfl fun j _ => ?_
  congr 1
  rw [← leftSketch_mat]
  rfl

theorem nystromErrSq_fsq (A : ND ℝ) (L R : Mats ℝ) {k l r : ℕ} (hk : k ≤ A.shape.length) (G : ℕ → ℕ → ℝ) :
    nystromErrSq A L R k l r G = fsq (A.unfolding k - A.unfolding k * rightMat A.shape R k r
      * (matOf r l G * (leftMat A.shape L k l * A.unfolding k))) := by
  unfold nystromErrSq
  rw [rangeErrSq_fsq _ _ hk]
  congr 3
  ext b j
  rw [Matrix.mul_apply, Matrix.of_apply, sum_range]
  exact sum_congr rfl fun c _ => by rw [← leftSketch_mat]; rfl

theorem streams_inj {m l N r s s' : ℕ} {σ : Fin N → Fin N} (hσ : Function.Injective σ) (h : s ≠ s') :
    Function.Injective (Sum.elim (fun p : Fin m × Fin l => Draw.stream s (p.2 * m + p.1))
      (fun p : Fin N × Fin r => Draw.stream s' (p.2 * N + σ p.1))) := by
  rintro (p | p) (q | q) e
  · exact congrArg _ (stream_pos_inj (σ := id) Function.injective_id s e)
  · exact absurd (Draw.stream.inj e).1 h
  · exact absurd (Draw.stream.inj e).1.symm h
  · exact congrArg _ (stream_pos_inj hσ s' e)

/-- **One bond.** -/
theorem bond_nystrom (hg : GaussianDraws P g) {A B : ND ℝ} {L R : (Draw → ℝ) → Mats ℝ} {l r : List ℕ} {s s' : ℕ → ℕ}
    (hL : GaussLeft L A.shape l s) (hR : GaussRight R A.shape r s') {mu k : ℕ} (hmu : mu < A.shape.length - 1)
    (hss : s mu ≠ s' mu) (hB : Oversampled A B mu k (l.getD mu 0))
    (hr : l.getD mu 0 + 2 ≤ r.getD mu 0 ∨ (B = A ∧ l.getD mu 0 ≤ r.getD mu 0)) :
    ∃ E : Ω → ℝ≥0∞, Measurable E ∧
      ∫⁻ ω, E ω ∂P ≤ ENNReal.ofReal ((1 + (l.getD mu 0 : ℝ) / ((r.getD mu 0 : ℝ) - l.getD mu 0 - 1))
        * ((1 + (k : ℝ) / ((l.getD mu 0 : ℝ) - k - 1)) * distSq A B)) ∧
      ∀ᵐ ω ∂P, ∀ G, IsPinv (omegaMat A (L (g ω)) (R (g ω)) mu (l.getD mu 0) (r.getD mu 0))
          (matOf (r.getD mu 0) (l.getD mu 0) G) →
        ENNReal.ofReal (nystromErrSq A (L (g ω)) (R (g ω)) (mu + 1) (l.getD mu 0) (r.getD mu 0) G) ≤ E ω := by
  obtain ⟨σ, hσ, hRe⟩ := hR mu hmu
  have hLe := hL mu hmu
  generalize l.getD mu 0 = c at *
  generalize r.getD mu 0 = d at *
  have hinj := streams_inj (m := (A.shape.take (mu + 1)).prod) (l := c) (r := d) hσ hss
  have hsel := hg.sel _ hinj (by
    intro s n k n' k' h _
    rw [mem_image] at h
    obtain ⟨p | p, -, h⟩ := h <;> cases h)
  have hmeas : Measurable fun ω (i : (Fin (A.shape.take (mu + 1)).prod × Fin c) ⊕ (Fin (A.shape.drop (mu + 1)).prod × Fin d)) =>
      g ω (Sum.elim (fun p : Fin (A.shape.take (mu + 1)).prod × Fin c =>
        Draw.stream (s mu) (p.2 * (A.shape.take (mu + 1)).prod + p.1))
      (fun p : Fin (A.shape.drop (mu + 1)).prod × Fin d =>
        Draw.stream (s' mu) (p.2 * (A.shape.drop (mu + 1)).prod + σ p.1)) i) :=
    measurable_pi_lambda _ fun p => hg.measurable _
  have hLm : ∀ ω, leftMat A.shape (L (g ω)) (mu + 1) c
      = (gm fun p : Fin (A.shape.take (mu + 1)).prod × Fin c => g ω (.stream (s mu) (p.2 * (A.shape.take (mu + 1)).prod + p.1)))ᵀ := by
    intro ω
    ext a i
    exact hLe (g ω) i a a.2
  have hRm : ∀ ω, rightMat A.shape (R (g ω)) (mu + 1) d
      = gm fun p : Fin (A.shape.drop (mu + 1)).prod × Fin d => g ω (.stream (s' mu) (p.2 * (A.shape.drop (mu + 1)).prod + σ p.1)) := by
    intro ω
    ext j b
    exact hRe (g ω) j b b.2
  by_cases hex : (A.unfolding (mu + 1)).rank ≤ c
  · refine ⟨fun _ => 0, measurable_const, by simp, ?_⟩
    have hcd : c ≤ d := by rcases hr with h | ⟨-, h⟩ <;> omega
    have k1 : ∀ᵐ ω ∂P, ∃ F, A.unfolding (mu + 1) * rightMat A.shape (R (g ω)) (mu + 1) d * F = A.unfolding (mu + 1) := by
      have h := range_exact (l := d) (A.unfolding (mu + 1)) (hex.trans hcd)
      have hm : Measurable fun ω (p : Fin (A.shape.drop (mu + 1)).prod × Fin d) =>
          g ω (.stream (s' mu) (p.2 * (A.shape.drop (mu + 1)).prod + σ p.1)) :=
        measurable_pi_lambda _ fun p => hg.measurable _
      rw [← hg.sel _ (stream_pos_inj (l := d) hσ (s' mu)) (stream_compatible _ _)] at h
      filter_upwards [ae_of_ae_map hm.aemeasurable h] with ω ⟨F, hF⟩
      rw [hRm]
      exact ⟨F, (sub_eq_zero.1 hF).symm⟩
    have k2 : ∀ᵐ ω ∂P, ∃ H, H * (leftMat A.shape (L (g ω)) (mu + 1) c * A.unfolding (mu + 1)) = A.unfolding (mu + 1) := by
      have h := range_exact (l := c) (A.unfolding (mu + 1))ᵀ (by rwa [Matrix.rank_transpose])
      have hm : Measurable fun ω (p : Fin (A.shape.take (mu + 1)).prod × Fin c) =>
          g ω (.stream (s mu) (p.2 * (A.shape.take (mu + 1)).prod + p.1)) :=
        measurable_pi_lambda _ fun p => hg.measurable _
      rw [← hg.sel _ (stream_pos_inj (l := c) (σ := id) Function.injective_id (s mu)) (stream_compatible _ _)] at h
      filter_upwards [ae_of_ae_map hm.aemeasurable h] with ω ⟨F, hF⟩
      rw [hLm]
      refine ⟨Fᵀ, ?_⟩
      have := congrArg Matrix.transpose (sub_eq_zero.1 hF)
      simp only [Matrix.transpose_mul, Matrix.transpose_transpose] at this
      exact this.symm
    filter_upwards [k1, k2] with ω ⟨F, hF⟩ ⟨H, hH⟩ G hG
    rw [omegaMat_mat] at hG
    rw [nystromErrSq_fsq _ _ _ (by omega), nystrom_exact hF hH hG.aga, sub_self]
    simp [fsq]
  · have hs : k + 2 ≤ c := by
      rcases hB.size with h | ⟨rfl, h⟩
      · exact h
      · exact absurd (hB.rank.trans h) hex
    have hd : c + 2 ≤ d := by
      rcases hr with h | ⟨rfl, -⟩
      · exact h
      · exact absurd (hB.rank.trans (by omega)) hex
    have hf := nysErr_meas (l := c) (r := d) (A.unfolding (mu + 1))
    have hf' : Measurable fun x : (Fin (A.shape.take (mu + 1)).prod × Fin c) ⊕ (Fin (A.shape.drop (mu + 1)).prod × Fin d) → ℝ =>
        nysErr (A.unfolding (mu + 1)) (fun p => x (.inl p)) (fun p => x (.inr p)) :=
      hf.comp (f := fun x : (Fin (A.shape.take (mu + 1)).prod × Fin c) ⊕ (Fin (A.shape.drop (mu + 1)).prod × Fin d) → ℝ =>
        ((fun p => x (.inl p)), fun p => x (.inr p))) (by fun_prop)
    refine ⟨_, hf'.comp hmeas, ?_, ?_⟩
    · refine (lintegral_map hf' hmeas).symm.trans_le ?_
      rw [hsel, stdG_sum _ hf, distSq_fsq A B (mu + 1)]
      exact nystrom_mean _ (unfoldAs A.shape B (mu + 1)) (by omega) (by rw [unfoldAs_rank hB.shape]; exact hB.rank) hs hd
    · have hset : MeasurableSet {p : (Fin (A.shape.take (mu + 1)).prod × Fin c → ℝ) × (Fin (A.shape.drop (mu + 1)).prod × Fin d → ℝ) |
          (((gm p.1)ᵀ * A.unfolding (mu + 1) * gm p.2) * ((gm p.1)ᵀ * A.unfolding (mu + 1) * gm p.2)ᵀ).det ≠ 0} := by
        have m1 : MMeas fun p : (Fin (A.shape.take (mu + 1)).prod × Fin c → ℝ) × (Fin (A.shape.drop (mu + 1)).prod × Fin d → ℝ) =>
            (gm p.1)ᵀ * A.unfolding (mu + 1) * gm p.2 :=
          ((MMeas.gm.transpose.mul (MMeas.const _)).comp measurable_fst).mul (MMeas.gm.comp measurable_snd)
        exact (m1.mul m1.transpose).det (measurableSet_singleton 0).compl
      have hae : ∀ᵐ p ∂((stdG (Fin (A.shape.take (mu + 1)).prod × Fin c)).prod (stdG (Fin (A.shape.drop (mu + 1)).prod × Fin d))),
          p ∈ {p : (Fin (A.shape.take (mu + 1)).prod × Fin c → ℝ) × (Fin (A.shape.drop (mu + 1)).prod × Fin d → ℝ) |
          (((gm p.1)ᵀ * A.unfolding (mu + 1) * gm p.2) * ((gm p.1)ᵀ * A.unfolding (mu + 1) * gm p.2)ᵀ).det ≠ 0} := by
        rw [Measure.ae_prod_mem_iff_ae_ae_mem hset]
        filter_upwards [stdG_left_rank (A.unfolding (mu + 1)) (l := c) (by omega)] with x hx
        exact nystrom_inner_ne _ hx (by omega)
      have hmp := measurePreserving_sumPiEquivProdPi
        fun _ : (Fin (A.shape.take (mu + 1)).prod × Fin c) ⊕ (Fin (A.shape.drop (mu + 1)).prod × Fin d) => gaussianReal 0 1
      have h1 := hmp.quasiMeasurePreserving.ae hae
      have h2 : ∀ᵐ x ∂(stdG ((Fin (A.shape.take (mu + 1)).prod × Fin c) ⊕ (Fin (A.shape.drop (mu + 1)).prod × Fin d))), _ := h1
      rw [← hsel] at h2
      filter_upwards [ae_of_ae_map hmeas.aemeasurable h2] with ω hω G hG
      have hω : (((gm fun p : Fin (A.shape.take (mu + 1)).prod × Fin c => g ω (.stream (s mu) (p.2 * (A.shape.take (mu + 1)).prod + p.1)))ᵀ
          * A.unfolding (mu + 1) * gm fun p : Fin (A.shape.drop (mu + 1)).prod × Fin d => g ω (.stream (s' mu) (p.2 * (A.shape.drop (mu + 1)).prod + σ p.1)))
          * ((gm fun p : Fin (A.shape.take (mu + 1)).prod × Fin c => g ω (.stream (s mu) (p.2 * (A.shape.take (mu + 1)).prod + p.1)))ᵀ
          * A.unfolding (mu + 1) * gm fun p : Fin (A.shape.drop (mu + 1)).prod × Fin d => g ω (.stream (s' mu) (p.2 * (A.shape.drop (mu + 1)).prod + σ p.1)))ᵀ).det ≠ 0 := hω
      rw [← hLm, ← hRm] at hω
      rw [omegaMat_mat] at hG
      have e := hG.unique (isPinv_rinv hω)
      rw [nystromErrSq_fsq _ _ _ (by omega), e, hLm, hRm]
      exact le_rfl

end TTS
