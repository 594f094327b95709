import Verif.Proofs.GaussOblique

/-!
# The mean error of a product of Gaussian oblique projections
-/

namespace TTS

open Finset MeasureTheory ProbabilityTheory Matrix
open scoped ENNReal

/-- ways to write arrays of the shape `sh` as matrices -/
structure UnfoldIso (sh : List ℕ) (m N : ℕ) (u : ND ℝ → Matrix (Fin m) (Fin N) ℝ) (v : Matrix (Fin m) (Fin N) ℝ → ND ℝ) :
    Prop where
  shape : ∀ M, (v M).shape = sh
  uv : ∀ M, u (v M) = M
  norm : ∀ Z, Z.shape = sh → normSq Z = fsq (u Z)
  minus : ∀ Z W, Z.shape = sh → W.shape = sh → u (Z.minus W) = u Z - u W
  vsub : ∀ M M', v (M - M') = (v M).minus (v M')
  umeas : ∀ {α : Type} [MeasurableSpace α] (U : α → ND ℝ), NMeas sh U → MMeas fun a => u (U a)
  vmeas : ∀ {α : Type} [MeasurableSpace α] (M : α → Matrix (Fin m) (Fin N) ℝ), MMeas M → NMeas sh fun a => v (M a)

theorem stdG_peel_ae {ι κ : Type*} [Fintype ι] [Fintype κ] (i : ι → κ) (hi : Function.Injective i) {s : Set (κ → ℝ)}
    (hs : MeasurableSet s) (h : ∀ᵐ x ∂(stdG κ), ∀ᵐ y ∂(stdG ι), Function.extend i y x ∈ s) :
    ∀ᵐ x ∂(stdG κ), x ∈ s := by
  rw [ae_iff]
  have e : stdG κ {x | ¬ x ∈ s} = ∫⁻ x, Set.indicator sᶜ 1 x ∂(stdG κ) := by
    rw [lintegral_indicator_one hs.compl]
    rfl
  rw [e, stdG_peel i hi _ (measurable_one.indicator hs.compl), lintegral_eq_zero_of_ae_eq_zero]
  filter_upwards [h] with x hx
  show ∫⁻ y, _ ∂_ = 0
  refine lintegral_eq_zero_of_ae_eq_zero ?_
  filter_upwards [hx] with y hy
  show Set.indicator sᶜ 1 _ = 0
  rw [Set.indicator_of_notMem]
  simpa using hy

/-- the entries of all sketching matrices -/
abbrev Entries (D : ℕ) (m p N q : ℕ → ℕ) : Type :=
  (Σ ν : Fin D, Fin (m ν) × Fin (p ν)) ⊕ (Σ ν : Fin D, Fin (N ν) × Fin (q ν))

section
variable {D : ℕ} {m p N q : ℕ → ℕ}

def lblk (x : Entries D m p N q → ℝ) (ν : ℕ) : Fin (m ν) × Fin (p ν) → ℝ :=
  fun s => if h : ν < D then x (.inl ⟨⟨ν, h⟩, s⟩) else 0

def rblk (x : Entries D m p N q → ℝ) (ν : ℕ) : Fin (N ν) × Fin (q ν) → ℝ :=
  fun s => if h : ν < D then x (.inr ⟨⟨ν, h⟩, s⟩) else 0

def lpos (ν : ℕ) (h : ν < D) (s : Fin (m ν) × Fin (p ν)) : Entries D m p N q := .inl ⟨⟨ν, h⟩, s⟩

theorem lpos_inj (ν : ℕ) (h : ν < D) : Function.Injective (lpos (m := m) (p := p) (N := N) (q := q) ν h) := by
  intro s t e
  have := Sum.inl.inj e
  simpa using this

theorem lblk_meas (ν : ℕ) : Measurable fun x : Entries D m p N q → ℝ => lblk x ν := by
  refine measurable_pi_lambda _ fun s => ?_
  unfold lblk
  split <;> fun_prop

theorem rblk_meas (ν : ℕ) : Measurable fun x : Entries D m p N q → ℝ => rblk x ν := by
  refine measurable_pi_lambda _ fun s => ?_
  unfold rblk
  split <;> fun_prop

theorem lblk_extend (ν : ℕ) (h : ν < D) (y : Fin (m ν) × Fin (p ν) → ℝ) (x : Entries D m p N q → ℝ) :
    lblk (Function.extend (lpos ν h) y x) ν = y := by
  funext s
  unfold lblk
  rw [dif_pos h]
  exact (lpos_inj ν h).extend_apply _ _ _

theorem lblk_extend' {ν μ : ℕ} (h : μ < D) (hne : μ ≠ ν) (y : Fin (m μ) × Fin (p μ) → ℝ) (x : Entries D m p N q → ℝ) :
    lblk (Function.extend (lpos μ h) y x) ν = lblk x ν := by
  funext s
  unfold lblk
  split
  · refine Function.extend_apply' _ _ _ ?_
    rintro ⟨t, e⟩
    have := congrArg (fun z : Entries D m p N q => z.elim (fun a => (a.1 : ℕ)) (fun _ => 0)) e
    exact hne this
  · rfl

theorem rblk_extend {ν μ : ℕ} (h : μ < D) (y : Fin (m μ) × Fin (p μ) → ℝ) (x : Entries D m p N q → ℝ) :
    rblk (Function.extend (lpos μ h) y x) ν = rblk x ν := by
  funext s
  unfold rblk
  split
  · refine Function.extend_apply' _ _ _ ?_
    rintro ⟨t, e⟩
    cases e
  · rfl

theorem rblk_law (ν : ℕ) (h : ν < D) :
    (stdG (Entries D m p N q)).map (fun x => rblk x ν) = stdG (Fin (N ν) × Fin (q ν)) := by
  rw [← stdG_comp (fun s : Fin (N ν) × Fin (q ν) => (.inr ⟨⟨ν, h⟩, s⟩ : Entries D m p N q)) (by
    intro s t e
    have := Sum.inr.inj e
    simpa using this)]
  congr 1
  funext x s
  unfold rblk
  rw [dif_pos h]

/-- the random projection, in terms of a basis `C` of its range -/
noncomputable def projOp {w : ℕ → ℕ} (u : ∀ ν, ND ℝ → Matrix (Fin (m ν)) (Fin (N ν)) ℝ)
    (v : ∀ ν, Matrix (Fin (m ν)) (Fin (N ν)) ℝ → ND ℝ)
    (C : ∀ ν, (Fin (N ν) × Fin (q ν) → ℝ) → Matrix (Fin (m ν)) (Fin (w ν)) ℝ) (ν : ℕ) (x : Entries D m p N q → ℝ) (Z : ND ℝ) :
    ND ℝ :=
  v ν (C ν (rblk x ν) * (rinv ((C ν (rblk x ν))ᵀ * gm (lblk x ν)))ᵀ * ((gm (lblk x ν))ᵀ * u ν Z))

variable {A : ND ℝ} {u : ∀ ν, ND ℝ → Matrix (Fin (m ν)) (Fin (N ν)) ℝ} {v : ∀ ν, Matrix (Fin (m ν)) (Fin (N ν)) ℝ → ND ℝ}

theorem UnfoldIso.dist {sh : List ℕ} {m N : ℕ} {u : ND ℝ → Matrix (Fin m) (Fin N) ℝ} {v : Matrix (Fin m) (Fin N) ℝ → ND ℝ}
    (h : UnfoldIso sh m N u v) {Z W : ND ℝ} (hZ : Z.shape = sh) (hW : W.shape = sh) : distSq Z W = fsq (u Z - u W) := by
  rw [← normSq_minus, h.norm _ (by exact hZ), h.minus _ _ hZ hW]

/-- **The mean error of a product of Gaussian oblique projections.** -/
theorem product_mean (hu : ∀ ν, UnfoldIso A.shape (m ν) (N ν) (u ν) (v ν)) (B : ℕ → ND ℝ) (k : ℕ → ℕ)
    (hBs : ∀ ν < D, (B ν).shape = A.shape) (hB : ∀ ν < D, (u ν (B ν)).rank ≤ k ν)
    (hk : ∀ ν < D, k ν + 2 ≤ q ν ∨ (B ν = A ∧ k ν ≤ q ν)) (hp : ∀ ν < D, q ν + 2 ≤ p ν) :
    ∃ E : (Entries D m p N q → ℝ) → ℝ≥0∞, Measurable E ∧
      ∫⁻ x, E x ∂(stdG (Entries D m p N q)) ≤ ENNReal.ofReal ((∑ ν ∈ range D, √((∏ μ ∈ range ν, growth (q μ) (p μ))
        * ((1 + (q ν : ℝ) / ((p ν : ℝ) - q ν - 1)) * ((1 + (k ν : ℝ) / ((q ν : ℝ) - k ν - 1)) * distSq A (B ν))))) ^ 2) ∧
      ∀ᵐ x ∂(stdG (Entries D m p N q)), ∀ G : ∀ ν, Matrix (Fin (q ν)) (Fin (p ν)) ℝ,
        (∀ ν < D, IsPinv ((gm (lblk x ν))ᵀ * (u ν A * gm (rblk x ν))) (G ν)) →
        ENNReal.ofReal (distSq A (opChain (fun ν Z => v ν (u ν A * gm (rblk x ν) * G ν * ((gm (lblk x ν))ᵀ * u ν Z))) D A))
          ≤ E x := by
  classical
  have hex : ∀ ν, ∃ (w : ℕ) (C : (Fin (N ν) × Fin (q ν) → ℝ) → Matrix (Fin (m ν)) (Fin w) ℝ)
      (H : (Fin (N ν) × Fin (q ν) → ℝ) → Matrix (Fin w) (Fin (N ν)) ℝ), MMeas C ∧ MMeas H ∧ (ν < D → w ≤ q ν ∧
      (∀ᵐ y ∂(stdG (Fin (N ν) × Fin (q ν))), (C y).rank = w ∧
        (∃ J : Matrix (Fin (q ν)) (Fin w) ℝ, C y = u ν A * gm y * J) ∧
        ∃ K : Matrix (Fin w) (Fin (q ν)) ℝ, u ν A * gm y = C y * K) ∧
      ∫⁻ y, ENNReal.ofReal (fsq (u ν A - C y * H y)) ∂(stdG (Fin (N ν) × Fin (q ν)))
        ≤ ENNReal.ofReal ((1 + (k ν : ℝ) / ((q ν : ℝ) - k ν - 1)) * distSq A (B ν))) := by
    intro ν
    by_cases hν : ν < D
    · obtain ⟨w, C, H, h1, h2, h3, h4, h5⟩ := column_frame (u ν A) (u ν (B ν)) (hB ν hν) (r := q ν)
        ((hk ν hν).imp_right fun h => ⟨by rw [h.1], h.2⟩)
      exact ⟨w, C, H, h2, h3, fun _ => ⟨h1, h4, by rw [(hu ν).dist rfl (hBs ν hν)]; exact h5⟩⟩
    · exact ⟨0, fun _ => 0, fun _ => 0, MMeas.const _, MMeas.const _, fun h => absurd h hν⟩
  choose w C H hCm hHm hC using hex
  have hCx : ∀ ν, MMeas fun x : Entries D m p N q → ℝ => C ν (rblk x ν) := fun ν => (hCm ν).comp (rblk_meas ν)
  have hLx : ∀ ν, MMeas fun x : Entries D m p N q → ℝ => gm (lblk x ν) := fun ν => MMeas.gm.comp (lblk_meas ν)
  have hF : ∀ ν, MMeas fun x : Entries D m p N q → ℝ => (C ν (rblk x ν))ᵀ * gm (lblk x ν) := fun ν =>
    (hCx ν).transpose.mul (hLx ν)
  have hrk : ∀ ν < D, ∀ᵐ x ∂(stdG (Entries D m p N q)), (C ν (rblk x ν)).rank = w ν ∧
        (∃ J : Matrix (Fin (q ν)) (Fin (w ν)) ℝ, C ν (rblk x ν) = u ν A * gm (rblk x ν) * J) ∧
        ∃ K : Matrix (Fin (w ν)) (Fin (q ν)) ℝ, u ν A * gm (rblk x ν) = C ν (rblk x ν) * K := by
    intro ν hν
    have := (hC ν hν).2.1
    rw [← rblk_law (D := D) (m := m) (p := p) ν hν] at this
    exact ae_of_ae_map (rblk_meas ν).aemeasurable this
  have hR : RandOps A.shape (fun ν => Fin (m ν) × Fin (p ν)) D (fun ν h => lpos (N := N) (q := q) ν h)
      (fun ν x => projOp u v C ν x) fun ν => growth (q ν) (p ν) := by
    refine ⟨fun ν x => ⟨fun Z => (hu ν).shape _, fun Z W hZ hW => ?_⟩, fun ν U hU => (hu ν).vmeas _ ?_,
      fun ν h => lpos_inj ν h, fun ν _ μ hμ hne x y => ?_, fun ν _ => growth_nonneg _ _, fun ν hν => ?_⟩
    · unfold projOp
      rw [(hu ν).minus _ _ hZ hW, Matrix.mul_sub, Matrix.mul_sub, (hu ν).vsub]
    · exact ((hCx ν).mul ((hF ν).transpose.mul ((hF ν).mul (hF ν).transpose).inv).transpose).mul
        ((hLx ν).transpose.mul ((hu ν).umeas _ hU))
    · funext Z
      unfold projOp
      rw [rblk_extend, lblk_extend' hμ hne]
    · filter_upwards [hrk ν hν] with x hx Z hZ
      have hw := (hC ν hν).1
      have e : ∀ y : Fin (m ν) × Fin (p ν) → ℝ,
          ENNReal.ofReal (normSq (projOp u v C ν (Function.extend (lpos (N := N) (q := q) ν hν) y x) Z))
          = ENNReal.ofReal (fsq ((u ν Z)ᵀ * gm y * (rinv ((C ν (rblk x ν))ᵀ * gm y) * (C ν (rblk x ν))ᵀ))) := by
        intro y
        unfold projOp
        rw [(hu ν).norm _ ((hu ν).shape _), (hu ν).uv, rblk_extend, lblk_extend, ← fsq_transpose]
        simp only [Matrix.transpose_mul, Matrix.transpose_transpose]
      rw [lintegral_congr e]
      refine (oblique_mean _ _ (by rw [Matrix.rank_transpose]; exact hx.1) (by have := hp ν hν; omega)).trans ?_
      rw [fsq_transpose, (hu ν).norm Z hZ]
      exact mul_le_mul' (ENNReal.ofReal_le_ofReal (growth_mono hw (hp ν hν))) le_rfl
  have hdist : ∀ ν < D, 0 ≤ (1 + (k ν : ℝ) / ((q ν : ℝ) - k ν - 1)) * distSq A (B ν) := by
    intro ν hν
    have hd : 0 ≤ distSq A (B ν) := sumIdx_nonneg fun i => sq_nonneg _
    rcases hk ν hν with h | ⟨h, -⟩
    · exact mul_nonneg (by linarith [ratio_nonneg h]) hd
    · have : distSq A (B ν) = 0 := by
        rw [h]
        exact sumIdx_eq_zero fun i _ => by rw [sub_self]; norm_num
      rw [this, mul_zero]
  have hmean := hR.mean_error (A := A)
    (fun ν => (1 + (q ν : ℝ) / ((p ν : ℝ) - q ν - 1)) * ((1 + (k ν : ℝ) / ((q ν : ℝ) - k ν - 1)) * distSq A (B ν)))
    (fun ν hν => mul_nonneg (by linarith [ratio_nonneg (hp ν hν)]) (hdist ν hν)) (by
      intro ν hν
      have hw := (hC ν hν).1
      have hpq := hp ν hν
      have hm : Measurable fun x : Entries D m p N q → ℝ => ENNReal.ofReal (distSq A (projOp u v C ν x A)) := by
        have h1 := hR.meas ν _ (NMeas.const (α := Entries D m p N q → ℝ) A)
        have h2 := normSq_meas ((NMeas.const (α := Entries D m p N q → ℝ) A).minus h1)
        simp only [normSq_minus] at h2
        exact h2.ennreal_ofReal
      rw [stdG_peel (lpos (N := N) (q := q) ν hν) (lpos_inj ν hν) _ hm]
      have hpos : 0 ≤ 1 + (q ν : ℝ) / ((p ν : ℝ) - q ν - 1) := by linarith [ratio_nonneg hpq]
      have hm2 : Measurable fun y : Fin (N ν) × Fin (q ν) → ℝ => ENNReal.ofReal (fsq (u ν A - C ν y * H ν y)) :=
        (fsq_measurable ((MMeas.const _).sub ((hCm ν).mul (hHm ν)))).ennreal_ofReal
      have key : ∀ᵐ x ∂(stdG (Entries D m p N q)), ∫⁻ y, ENNReal.ofReal (distSq A (projOp u v C ν
          (Function.extend (lpos (N := N) (q := q) ν hν) y x) A)) ∂(stdG (Fin (m ν) × Fin (p ν)))
          ≤ ENNReal.ofReal (1 + (q ν : ℝ) / ((p ν : ℝ) - q ν - 1))
            * ENNReal.ofReal (fsq (u ν A - C ν (rblk x ν) * H ν (rblk x ν))) := by
        filter_upwards [hrk ν hν] with x hx
        have e : ∀ y : Fin (m ν) × Fin (p ν) → ℝ,
            ENNReal.ofReal (distSq A (projOp u v C ν (Function.extend (lpos (N := N) (q := q) ν hν) y x) A))
            = ENNReal.ofReal (fsq ((u ν A)ᵀ - (u ν A)ᵀ * gm y * (rinv ((C ν (rblk x ν))ᵀ * gm y) * (C ν (rblk x ν))ᵀ))) := by
          intro y
          unfold projOp
          rw [(hu ν).dist rfl ((hu ν).shape _), (hu ν).uv, rblk_extend, lblk_extend, ← fsq_transpose]
          simp only [Matrix.transpose_mul, Matrix.transpose_transpose, Matrix.transpose_sub]
        rw [lintegral_congr e]
        refine (nystrom_inner _ _ (by rw [Matrix.rank_transpose]; exact hx.1) (by omega) (H ν (rblk x ν))ᵀ).trans ?_
        rw [← ENNReal.ofReal_mul hpos, ← fsq_transpose]
        simp only [Matrix.transpose_mul, Matrix.transpose_transpose, Matrix.transpose_sub]
        refine ENNReal.ofReal_le_ofReal (mul_le_mul_of_nonneg_right ?_ (fsq_nonneg _))
        linarith [ratio_mono hw hpq]
      refine (lintegral_mono_ae key).trans ?_
      have hm3 : Measurable fun x : Entries D m p N q → ℝ =>
          ENNReal.ofReal (fsq (u ν A - C ν (rblk x ν) * H ν (rblk x ν))) := hm2.comp (rblk_meas ν)
      rw [lintegral_const_mul _ hm3, ENNReal.ofReal_mul hpos]
      refine mul_le_mul' le_rfl ?_
      rw [← lintegral_map (f := fun y : Fin (N ν) × Fin (q ν) → ℝ => ENNReal.ofReal (fsq (u ν A - C ν y * H ν y))) hm2
        (rblk_meas ν), rblk_law ν hν]
      exact (hC ν hν).2.2)
  refine ⟨fun x => ENNReal.ofReal (distSq A (opChain (fun ν => projOp u v C ν x) D A)), ?_, hmean, ?_⟩
  · have h1 := hR.chain_meas D _ (NMeas.const (α := Entries D m p N q → ℝ) A)
    have h2 := normSq_meas ((NMeas.const (α := Entries D m p N q → ℝ) A).minus h1)
    simp only [normSq_minus] at h2
    exact h2.ennreal_ofReal
  · have hdet : ∀ ν < D, ∀ᵐ x ∂(stdG (Entries D m p N q)),
        ((C ν (rblk x ν))ᵀ * gm (lblk x ν) * ((C ν (rblk x ν))ᵀ * gm (lblk x ν))ᵀ).det ≠ 0 := by
      intro ν hν
      have hs : MeasurableSet {x : Entries D m p N q → ℝ |
          ((C ν (rblk x ν))ᵀ * gm (lblk x ν) * ((C ν (rblk x ν))ᵀ * gm (lblk x ν))ᵀ).det ≠ 0} :=
        (((hF ν).mul (hF ν).transpose).det (measurableSet_singleton 0)).compl
      refine stdG_peel_ae (lpos (N := N) (q := q) ν hν) (lpos_inj ν hν) hs ?_
      filter_upwards [hrk ν hν] with x hx
      filter_upwards [nystrom_inner_ne (C ν (rblk x ν))ᵀ (by rw [Matrix.rank_transpose]; exact hx.1)
        (show w ν ≤ p ν by have := (hC ν hν).1; have := hp ν hν; omega)] with y hy
      show (_ * _ * _ : Matrix _ _ ℝ).det ≠ 0
      rw [rblk_extend, lblk_extend]
      exact hy
    have hall : ∀ᵐ x ∂(stdG (Entries D m p N q)), ∀ ν, ν < D → ((C ν (rblk x ν)).rank = w ν ∧
        (∃ J : Matrix (Fin (q ν)) (Fin (w ν)) ℝ, C ν (rblk x ν) = u ν A * gm (rblk x ν) * J) ∧
        ∃ K : Matrix (Fin (w ν)) (Fin (q ν)) ℝ, u ν A * gm (rblk x ν) = C ν (rblk x ν) * K) ∧
        ((C ν (rblk x ν))ᵀ * gm (lblk x ν) * ((C ν (rblk x ν))ᵀ * gm (lblk x ν))ᵀ).det ≠ 0 := by
      rw [ae_all_iff]
      intro ν
      rw [Filter.eventually_imp_distrib_left]
      exact fun hν => (hrk ν hν).and (hdet ν hν)
    filter_upwards [hall] with x hx G hG
    refine le_of_eq ?_
    congr 2
    refine opChain_congr (fun ν => hR.lin ν x) D (fun ν hν Z _ => ?_) A rfl
    obtain ⟨⟨h1, ⟨J, hJ⟩, K, hK⟩, h2⟩ := hx ν hν
    unfold projOp
    have := pinv_factor (L := (gm (lblk x ν))ᵀ) hJ hK h1 (by rw [Matrix.transpose_transpose]; exact h2) (hG ν hν)
    rw [this, Matrix.transpose_transpose]

end

end TTS
