import Verif.Spec.GaussErr
import Verif.Proofs.GaussRange
import Verif.Proofs.ProbSketch
import Verif.Proofs.ProbGauss

/-!
# The matrices of dense Gaussian DRMs, and the mean error of range finders
-/

namespace TTS

open Finset MeasureTheory ProbabilityTheory Props
open scoped ENNReal

variable {Ω : Type*} [MeasurableSpace Ω] {P : Measure Ω} {g : Ω → Draw → ℝ}

theorem normalDraws_gaussian : GaussianDraws normalDraws fun ω x => ω x where
  measurable x := measurable_pi_apply x
  law _ _ := Measure.infinitePi_map_restrict (fun _ : Draw => gaussianReal 0 1)

theorem GaussianDraws.prob (hg : GaussianDraws P g) : IsProbabilityMeasure P := by
  have h := hg.law ∅ (fun _ _ _ _ _ h => absurd h (by simp))
  have h1 : (P.map fun ω (x : (∅ : Finset Draw)) => g ω x) Set.univ = 1 := by rw [h]; exact measure_univ
  rw [Measure.map_apply (f := fun ω (x : (∅ : Finset Draw)) => g ω x)
    (measurable_pi_lambda _ fun x => hg.measurable x) MeasurableSet.univ, Set.preimage_univ] at h1
  exact ⟨h1⟩

theorem GaussianDraws.continuous (hg : GaussianDraws P g) : ContinuousDraws P g where
  measurable := hg.measurable
  density T hT := by
    rw [hg.law T hT]
    exact pi_ac _ _ (gaussianReal_absolutelyContinuous 0 one_ne_zero)

/-- a selection of different draws -/
theorem GaussianDraws.sel (hg : GaussianDraws P g) {ι : Type*} [Fintype ι] (e : ι → Draw) (he : Function.Injective e)
    (hc : Draw.Compatible (univ.image e)) : P.map (fun ω i => g ω (e i)) = stdG ι := by
  have h := hg.law _ hc
  set e' : ι → (univ.image e : Finset Draw) := fun i => ⟨e i, mem_image_of_mem _ (mem_univ i)⟩ with he'
  have hi : Function.Injective e' := fun i j h => he (congrArg Subtype.val h)
  rw [← stdG_comp e' hi]
  unfold stdG
  rw [← h, Measure.map_map]
  · rfl
  · exact measurable_pi_lambda _ fun k => measurable_pi_apply _
  · exact measurable_pi_lambda _ fun x => hg.measurable x

/-- draws of streams are compatible -/
theorem stream_compatible {ι : Type*} [Fintype ι] (s : ι → ℕ) (p : ι → ℕ) :
    Draw.Compatible (univ.image fun i => Draw.stream (s i) (p i)) := by
  intro s' n k n' k' h _
  simp at h

theorem stream_pos_inj {N l : ℕ} {σ : Fin N → Fin N} (hσ : Function.Injective σ) (s : ℕ) :
    Function.Injective fun p : Fin N × Fin l => Draw.stream s (p.2 * N + σ p.1) := by
  intro p q h
  have h := (Draw.stream.inj h).2
  have h1 := congrArg (· / N) h
  have h2 := congrArg (· % N) h
  rw [mul_add_div (σ p.1).2, mul_add_div (σ q.1).2] at h1
  rw [mul_add_mod' (σ p.1).2, mul_add_mod' (σ q.1).2] at h2
  exact Prod.ext (hσ (Fin.ext h2)) (Fin.ext h1)

/-- Right sketching matrices with independent standard normal entries: bond `k` uses the generator with seed `s k`. -/
def GaussRight (R : (Draw → ℝ) → Mats ℝ) (sh r : List ℕ) (s : ℕ → ℕ) : Prop :=
  ∀ k < sh.length - 1, ∃ σ : Fin (sh.drop (k + 1)).prod → Fin (sh.drop (k + 1)).prod, Function.Injective σ ∧
    ∀ g (j : Fin (sh.drop (k + 1)).prod), ∀ b < r.getD k 0,
      R g (k + 1) (unravel (sh.drop (k + 1)) j) b = g (.stream (s k) (b * (sh.drop (k + 1)).prod + σ j))

/-- seed of the generator behind bond `k` of a right dense Gaussian DRM -/
def rightStream (env : Env ℝ) (sh : List ℕ) (seed k : ℕ) : ℕ :=
  (seed % (2 ^ 32 - 1) + env.seedOffset (some seed) (sh.drop (k + 1)).prod) % (2 ^ 32 - 1)

theorem rightMats_gauss (env : Env ℝ) (sh r : List ℕ) (seed : ℕ) (hl : r.length = sh.length - 1) :
    GaussRight (fun g => (madeDRM (env.withDraws g) .denseGaussian sh true seed r).rightMats (env.withDraws g)) sh r
      (rightStream env sh seed) := by
  intro k hk
  have hs := made_dense_entry' env sh true seed r (sh.length - 1 - (k + 1)) (by omega)
  have e0 : (rev? true sh).take (sh.length - 1 - (k + 1) + 1) = (sh.drop (k + 1)).reverse := by
    show sh.reverse.take _ = _
    rw [List.take_reverse]; congr 2; omega
  have e2 : (rev? true r).getD (sh.length - 1 - (k + 1)) 0 = r.getD k 0 := by
    rw [rev?_getD _ _ _ (by omega)]
    congr 1
    simp; omega
  have e3 : (sh.drop (k + 1)).reverse.prod = (sh.drop (k + 1)).prod := List.prod_reverse _
  have ha : ∀ j : Fin (sh.drop (k + 1)).prod, ravel (sh.drop (k + 1)).reverse (unravel (sh.drop (k + 1)) j).reverse
      < (sh.drop (k + 1)).prod := fun j => by
    exact (ravel_lt (unravel_inR j.2).reverse).trans_eq e3
  refine ⟨fun j => ⟨ravel (sh.drop (k + 1)).reverse (unravel (sh.drop (k + 1)) j).reverse, ha j⟩, ?_, ?_⟩
  · intro i j h
    have h := congrArg Fin.val h
    simp only at h
    have h2 := congrArg (unravel (sh.drop (k + 1)).reverse) h
    rw [unravel_ravel (unravel_inR i.2).reverse, unravel_ravel (unravel_inR j.2).reverse] at h2
    have h3 := congrArg (fun l => ravel (sh.drop (k + 1)) (List.reverse l)) h2
    simp only [List.reverse_reverse] at h3
    rw [ravel_unravel i.2, ravel_unravel j.2] at h3
    exact Fin.ext h3
  · intro g j b hb
    show (if k + 1 = sh.length then 1 else _) = _
    rw [if_neg (by omega)]
    show DRM.entry _ _ (sh.length - 1 - (k + 1)) _ _ = _
    rw [hs g _ b (by rw [e0]; exact (unravel_inR j.2).reverse) (by rw [e2]; exact hb)]
    simp only [e0, e3]
    rfl

theorem rightMatsDense_gauss (env : Env ℝ) (sh r : List ℕ) (seed : ℕ) (hl : r.length = sh.length - 1) :
    GaussRight (fun g => (madeDRM (env.withDraws g) .denseGaussian sh true seed r).rightMatsDense (env.withDraws g)) sh r
      (rightStream env sh seed) := by
  intro k hk
  have hs := made_dense_entry' env sh true seed r (sh.length - 1 - (k + 1)) (by omega)
  have e0 : (rev? true sh).take (sh.length - 1 - (k + 1) + 1) = (sh.drop (k + 1)).reverse := by
    show sh.reverse.take _ = _
    rw [List.take_reverse]; congr 2; omega
  have e2 : (rev? true r).getD (sh.length - 1 - (k + 1)) 0 = r.getD k 0 := by
    rw [rev?_getD _ _ _ (by omega)]
    congr 1
    simp; omega
  have e3 : (sh.drop (k + 1)).reverse.prod = (sh.drop (k + 1)).prod := List.prod_reverse _
  refine ⟨id, Function.injective_id, ?_⟩
  intro g j b hb
  have hj : ravel (sh.drop (k + 1)) (unravel (sh.drop (k + 1)) j) < (sh.drop (k + 1)).reverse.prod := by
    rw [ravel_unravel j.2, e3]; exact j.2
  show (if k + 1 = sh.length then 1 else _) = _
  rw [if_neg (by omega)]
  show DRM.entry _ _ (sh.length - 1 - (k + 1)) (unravel (sh.drop (k + 1)).reverse
    (ravel (sh.drop (k + 1)) (unravel (sh.drop (k + 1)) j))) b = _
  rw [hs g _ b (by rw [e0]; exact unravel_inR hj) (by rw [e2]; exact hb), e0, ravel_unravel hj, ravel_unravel j.2, e3]
  rfl

/-! ### Errors of bonds as matrix norms -/

/-- coefficients of a matrix, by multi-index -/
def coefOf (sh : List ℕ) {l : ℕ} (F : Matrix (Fin l) (Fin sh.prod) ℝ) (b : ℕ) (q : List ℕ) : ℝ :=
  if h : b < l ∧ ravel sh q < sh.prod then F ⟨b, h.1⟩ ⟨_, h.2⟩ else 0

theorem coefOf_unravel (sh : List ℕ) {l : ℕ} (F : Matrix (Fin l) (Fin sh.prod) ℝ) (b : Fin l) (j : Fin sh.prod) :
    coefOf sh F b (unravel sh j) = F b j := by
  unfold coefOf
  rw [dif_pos ⟨b.2, by rw [ravel_unravel j.2]; exact j.2⟩]
  congr 1
  exact Fin.ext (ravel_unravel j.2)

theorem sumIdx_unfold (sh : List ℕ) (k : ℕ) (f : List ℕ → ℝ) : sumIdx sh f
    = ∑ i : Fin (sh.take k).prod, ∑ j : Fin (sh.drop k).prod, f (unravel (sh.take k) i ++ unravel (sh.drop k) j) := by
  conv_lhs => rw [← List.take_append_drop k sh]
  rw [sumIdx_append, sumIdx_fin]
  exact sum_congr rfl fun i _ => sumIdx_fin _ _

/-- the matrix of a right sketch -/
def rightMat (sh : List ℕ) (R : Mats ℝ) (k l : ℕ) : Matrix (Fin (sh.drop k).prod) (Fin l) ℝ :=
  Matrix.of fun j b => R k (unravel (sh.drop k) j) b

theorem rightSketch_mat (A : ND ℝ) (R : Mats ℝ) (k l : ℕ) (i : Fin (A.shape.take k).prod) (b : Fin l) :
    rightSketch A R k (unravel (A.shape.take k) i) b = (A.unfolding k * rightMat A.shape R k l) i b := by
  rw [rightSketch, sumIdx_fin, Matrix.mul_apply]
  rfl

theorem rangeErrSq_fsq (A : ND ℝ) (R : Mats ℝ) {k l : ℕ} (hk : k ≤ A.shape.length) (B : ℕ → List ℕ → ℝ) :
    rangeErrSq A R k l B = fsq (A.unfolding k - A.unfolding k * rightMat A.shape R k l
      * Matrix.of fun (b : Fin l) (j : Fin (A.shape.drop k).prod) => B b (unravel (A.shape.drop k) j)) := by
  unfold rangeErrSq fsq
  rw [sumIdx_unfold _ k]
  refine sum_congr rfl fun i _ => sum_congr rfl fun j _ => ?_
  have hlen : (unravel (A.shape.take k) i).length = k := by
    rw [(unravel_inR i.2).length, List.length_take]; omega
  congr 1
  rw [Matrix.sub_apply]
  congr 1
  rw [Matrix.mul_apply, Finset.sum_range]
  refine sum_congr rfl fun b _ => ?_
  rw [List.take_left' hlen, List.drop_left' hlen, rightSketch_mat, Matrix.of_apply]

/-- an array of the same shape, unfolded -/
def unfoldAs (sh : List ℕ) (B : ND ℝ) (k : ℕ) : Matrix (Fin (sh.take k).prod) (Fin (sh.drop k).prod) ℝ :=
  Matrix.of fun i j => B.get (unravel (sh.take k) i ++ unravel (sh.drop k) j)

theorem unfoldAs_rank {sh : List ℕ} {B : ND ℝ} (h : B.shape = sh) (k : ℕ) :
    (unfoldAs sh B k).rank = (B.unfolding k).rank := by
  subst h
  rfl

theorem distSq_fsq (A B : ND ℝ) (k : ℕ) : distSq A B = fsq (A.unfolding k - unfoldAs A.shape B k) := by
  unfold distSq fsq
  rw [sumIdx_unfold _ k]
  rfl

/-- **One bond.** -/
theorem bond_mean (hg : GaussianDraws P g) {A B : ND ℝ} {R : (Draw → ℝ) → Mats ℝ} {r : List ℕ} {s : ℕ → ℕ}
    (hR : GaussRight R A.shape r s) {mu k : ℕ} (hmu : mu < A.shape.length - 1) (hB : Oversampled A B mu k (r.getD mu 0)) :
    ∃ E : Ω → ℝ≥0∞, Measurable E ∧
      ∫⁻ ω, E ω ∂P ≤ ENNReal.ofReal ((1 + (k : ℝ) / ((r.getD mu 0 : ℝ) - k - 1)) * distSq A B) ∧
      ∀ᵐ ω ∂P, ∃ C, ENNReal.ofReal (rangeErrSq A (R (g ω)) (mu + 1) (r.getD mu 0) C) ≤ E ω := by
  obtain ⟨σ, hσ, hRe⟩ := hR mu hmu
  set l := r.getD mu 0 with hl
  have hinj := stream_pos_inj (l := l) hσ (s mu)
  have hsel := hg.sel _ hinj (stream_compatible _ _)
  have hmeas : Measurable fun ω (p : Fin (A.shape.drop (mu + 1)).prod × Fin l) => g ω (.stream (s mu) (p.2 * (A.shape.drop (mu + 1)).prod + σ p.1)) :=
    measurable_pi_lambda _ fun p => hg.measurable _
  have hRm : ∀ ω, rightMat A.shape (R (g ω)) (mu + 1) l
      = gm fun p : Fin (A.shape.drop (mu + 1)).prod × Fin l => g ω (.stream (s mu) (p.2 * (A.shape.drop (mu + 1)).prod + σ p.1)) := by
    intro ω
    ext j b
    exact hRe (g ω) j b b.2
  rcases hB.size with hs | ⟨rfl, hs⟩
  · obtain ⟨F, hF, hint⟩ := range_finder (A.unfolding (mu + 1)) (unfoldAs A.shape B (mu + 1))
      (by rw [unfoldAs_rank hB.shape]; exact hB.rank) hs
    have hEm : Measurable fun G : Fin (A.shape.drop (mu + 1)).prod × Fin l → ℝ => ENNReal.ofReal (fsq (A.unfolding (mu + 1)
        - A.unfolding (mu + 1) * gm G * F G)) :=
      (fsq_measurable ((MMeas.const _).sub (((MMeas.const _).mul MMeas.gm).mul hF))).ennreal_ofReal
    refine ⟨_, hEm.comp hmeas, ?_, Filter.Eventually.of_forall fun ω => ?_⟩
    · show ∫⁻ ω, (fun G : Fin (A.shape.drop (mu + 1)).prod × Fin l → ℝ => ENNReal.ofReal (fsq (A.unfolding (mu + 1)
        - A.unfolding (mu + 1) * gm G * F G))) (fun p : Fin (A.shape.drop (mu + 1)).prod × Fin l => g ω (.stream (s mu) (p.2 * (A.shape.drop (mu + 1)).prod + σ p.1))) ∂P ≤ _
      rw [← lintegral_map hEm hmeas, hsel, distSq_fsq A B (mu + 1)]
      exact hint
    · refine ⟨coefOf _ (F fun p : Fin (A.shape.drop (mu + 1)).prod × Fin l => g ω (.stream (s mu) (p.2 * (A.shape.drop (mu + 1)).prod + σ p.1))), le_of_eq ?_⟩
      rw [rangeErrSq_fsq _ _ (by omega), hRm]
      show _ = ENNReal.ofReal _
      congr 4
      ext b j
      exact coefOf_unravel _ _ b j
  · refine ⟨fun _ => 0, measurable_const, by simp, ?_⟩
    have h := range_exact (B.unfolding (mu + 1)) (hB.rank.trans hs)
    rw [← hsel] at h
    filter_upwards [ae_of_ae_map hmeas.aemeasurable h] with ω hω
    obtain ⟨F, hF⟩ := hω
    refine ⟨coefOf _ F, le_of_eq ?_⟩
    rw [rangeErrSq_fsq _ _ (by omega), hRm]
    have e : (Matrix.of fun (b : Fin l) (j : Fin (B.shape.drop (mu + 1)).prod) => coefOf (B.shape.drop (mu + 1)) F b
        (unravel (B.shape.drop (mu + 1)) j)) = F := by
      ext b j
      exact coefOf_unravel _ _ b j
    rw [e, hF]
    simp [fsq]

end TTS
