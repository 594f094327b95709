import Verif.Proofs.GaussNystrom

/-!
# Products of independent random operators
-/

namespace TTS

open Finset MeasureTheory ProbabilityTheory Matrix
open scoped ENNReal

/-- resampling some of the coordinates -/
theorem stdG_peel {ι κ : Type*} [Fintype ι] [Fintype κ] (i : ι → κ) (hi : Function.Injective i)
    (F : (κ → ℝ) → ℝ≥0∞) (hF : Measurable F) :
    ∫⁻ x, F x ∂(stdG κ) = ∫⁻ x, (∫⁻ y, F (Function.extend i y x) ∂(stdG ι)) ∂(stdG κ) := by
  classical
  set φ : κ → κ ⊕ ι := fun k => if h : ∃ j, i j = k then .inr h.choose else .inl k with hφ
  have hφi : Function.Injective φ := by
    intro k k' h
    simp only [hφ] at h
    split at h <;> split at h
    · next h1 h2 =>
      have := Sum.inr.inj h
      rw [← h1.choose_spec, ← h2.choose_spec, this]
    · cases h
    · cases h
    · exact Sum.inl.inj h
  have hm : Measurable fun z : κ ⊕ ι → ℝ => fun k => z (φ k) := by fun_prop
  rw [← stdG_comp φ hφi, lintegral_map hF hm]
  have e : ∀ z : κ ⊕ ι → ℝ, (fun k => z (φ k))
      = Function.extend i (fun j => z (.inr j)) (fun k => z (.inl k)) := by
    intro z
    funext k
    by_cases h : ∃ j, i j = k
    · obtain ⟨j, rfl⟩ := h
      rw [hi.extend_apply]
      have h' : ∃ j', i j' = i j := ⟨j, rfl⟩
      simp only [hφ, dif_pos h']
      congr 2
      exact hi h'.choose_spec
    · rw [Function.extend_apply' _ _ _ h]
      simp only [hφ, dif_neg h]
  rw [lintegral_congr fun z => by rw [e z]]
  have hmm : Measurable fun p : (κ → ℝ) × (ι → ℝ) => Function.extend i p.2 p.1 := by
    refine measurable_pi_lambda _ fun k => ?_
    by_cases h : ∃ j, i j = k
    · obtain ⟨j, rfl⟩ := h
      simp only [hi.extend_apply]
      fun_prop
    · simp only [Function.extend_apply' _ _ _ h]
      fun_prop
  have h1 := stdG_sum (fun (x : κ → ℝ) (y : ι → ℝ) => F (Function.extend i y x)) (hF.comp hmm)
  rw [h1]
  have hg : Measurable fun x : κ → ℝ => ∫⁻ y, F (Function.extend i y x) ∂(stdG ι) :=
    Measurable.lintegral_prod_right' (f := fun p : (κ → ℝ) × (ι → ℝ) => F (Function.extend i p.2 p.1)) (hF.comp hmm)
  rw [stdG_comp φ hφi]

/-- Minkowski's inequality -/
theorem lintegral_sum_sq {α : Type*} [MeasurableSpace α] (μ : Measure α) (f : ℕ → α → ℝ≥0∞)
    (hf : ∀ k, Measurable (f k)) (n : ℕ) :
    (∫⁻ a, (∑ k ∈ range n, f k a) ^ (2 : ℝ) ∂μ) ^ (1 / (2 : ℝ))
      ≤ ∑ k ∈ range n, (∫⁻ a, f k a ^ (2 : ℝ) ∂μ) ^ (1 / (2 : ℝ)) := by
  induction n with
  | zero => simp
  | succ n ih =>
    rw [sum_range_succ]
    refine le_trans (le_trans (le_of_eq ?_) (ENNReal.lintegral_Lp_add_le (μ := μ) (p := 2)
      (f := fun a => ∑ k ∈ range n, f k a) (g := f n) (Finset.measurable_sum _ fun k _ => hf k).aemeasurable
      (hf n).aemeasurable (by norm_num))) (add_le_add ih le_rfl)
    congr 1
    refine lintegral_congr fun a => ?_
    rw [sum_range_succ]
    rfl

/-- `T 0 (T 1 (… (T (n-1) Z)))` -/
def opChain (T : ℕ → ND ℝ → ND ℝ) : ℕ → ND ℝ → ND ℝ
  | 0, Z => Z
  | n + 1, Z => opChain T n (T n Z)

theorem obliques_chain (A : ND ℝ) (L R : Mats ℝ) (l r : List ℕ) (G : ℕ → ℕ → ℕ → ℝ) : ∀ (n : ℕ) (Z : ND ℝ),
    obliques A L R l r G n Z = opChain (fun k => oblique A L R (k + 1) (l.getD k 0) (r.getD k 0) (G k)) n Z
  | 0, _ => rfl
  | n + 1, Z => obliques_chain A L R l r G n _

/-- linear maps of arrays -/
structure NDLin (sh : List ℕ) (T : ND ℝ → ND ℝ) : Prop where
  shape : ∀ Z, (T Z).shape = sh
  minus : ∀ Z W : ND ℝ, Z.shape = sh → W.shape = sh → T (Z.minus W) = (T Z).minus (T W)

theorem opChain_shape {sh : List ℕ} {T : ℕ → ND ℝ → ND ℝ} (hT : ∀ k, NDLin sh (T k)) :
    ∀ (n : ℕ) (Z : ND ℝ), Z.shape = sh → (opChain T n Z).shape = sh
  | 0, _, h => h
  | n + 1, Z, _ => opChain_shape hT n _ ((hT n).shape Z)

theorem opChain_minus {sh : List ℕ} {T : ℕ → ND ℝ → ND ℝ} (hT : ∀ k, NDLin sh (T k)) :
    ∀ (n : ℕ) (Z W : ND ℝ), Z.shape = sh → W.shape = sh →
      opChain T n (Z.minus W) = (opChain T n Z).minus (opChain T n W)
  | 0, _, _, _, _ => rfl
  | n + 1, Z, W, hZ, hW => by
    show opChain T n (T n (Z.minus W)) = _
    rw [(hT n).minus Z W hZ hW, opChain_minus hT n _ _ ((hT n).shape Z) ((hT n).shape W)]
    rfl

theorem opChain_congr {T S : ℕ → ND ℝ → ND ℝ} {sh : List ℕ} (hS : ∀ k, NDLin sh (S k)) :
    ∀ (n : ℕ) (_ : ∀ k < n, ∀ Z : ND ℝ, Z.shape = sh → T k Z = S k Z) (Z : ND ℝ), Z.shape = sh →
      opChain T n Z = opChain S n Z
  | 0, _, _, _ => rfl
  | n + 1, h, Z, hZ => by
    show opChain T n (T n Z) = opChain S n (S n Z)
    rw [h n (by omega) Z hZ]
    exact opChain_congr hS n (fun k hk => h k (by omega)) _ ((hS n).shape Z)

/-- the error is at most the sum of the errors of the factors, propagated by the factors before -/
theorem opChain_error {A : ND ℝ} {T : ℕ → ND ℝ → ND ℝ} (hT : ∀ k, NDLin A.shape (T k)) :
    ∀ n, √(distSq A (opChain T n A)) ≤ ∑ m ∈ range n, √(normSq (opChain T m (A.minus (T m A))))
  | 0 => by
    have : distSq A A = 0 := sumIdx_eq_zero fun i _ => by simp
    simp [opChain, this]
  | n + 1 => by
    rw [sum_range_succ]
    refine le_trans ?_ (add_le_add (opChain_error hT n) le_rfl)
    rw [opChain_minus hT n A (T n A) rfl ((hT n).shape A), normSq_minus]
    have hs := opChain_shape hT n A rfl
    show √(distSq A (opChain T n (T n A))) ≤ _
    rw [sqrt_distSq, sqrt_distSq, sqrt_distSq, hs]
    exact norm_sub_le_norm_sub_add_norm_sub _ _ _

/-- random arrays -/
structure NMeas {α : Type*} [MeasurableSpace α] (sh : List ℕ) (U : α → ND ℝ) : Prop where
  shape : ∀ a, (U a).shape = sh
  meas : ∀ j, Measurable fun a => (U a).get j

theorem NMeas.const {α : Type*} [MeasurableSpace α] (A : ND ℝ) : NMeas A.shape fun _ : α => A :=
  ⟨fun _ => rfl, fun _ => measurable_const⟩

theorem NMeas.minus {α : Type*} [MeasurableSpace α] {sh : List ℕ} {U V : α → ND ℝ} (hU : NMeas sh U) (hV : NMeas sh V) :
    NMeas sh fun a => (U a).minus (V a) := by
  refine ⟨fun a => hU.shape a, fun j => ?_⟩
  by_cases hj : InR sh j
  · have e : ∀ a, ((U a).minus (V a)).get j = (U a).get j - (V a).get j := fun a => by
      unfold ND.minus
      rw [ND.ofFn_get (by rw [hU.shape a]; exact hj)]
    simp only [e]
    exact (hU.meas j).sub (hV.meas j)
  · have e : ∀ a, ((U a).minus (V a)).get j = 0 := fun a =>
      ND.supp _ j (by show ¬ InR (U a).shape j; rw [hU.shape a]; exact hj)
    simp only [e]
    exact measurable_const

theorem normSq_meas {α : Type*} [MeasurableSpace α] {sh : List ℕ} {U : α → ND ℝ} (hU : NMeas sh U) :
    Measurable fun a => normSq (U a) := by
  have e : ∀ a, normSq (U a) = ∑ i ∈ idxSet sh, (U a).get i ^ 2 := fun a => by
    unfold normSq
    rw [hU.shape a, sumIdx_eq_sum]
  simp only [e]
  exact Finset.measurable_sum _ fun i _ => (hU.meas _).pow_const 2

/-- Random linear maps `T 0, …, T (D-1)` of arrays: besides numbers they may share, each uses a block of numbers that no
other one looks at; averaging over this block, `T ν` increases the squared norm at most by the factor `c ν`. -/
structure RandOps (sh : List ℕ) {κ : Type} [Fintype κ] (ι : ℕ → Type) [∀ ν, Fintype (ι ν)] (D : ℕ)
    (b : ∀ ν, ν < D → ι ν → κ) (T : ℕ → (κ → ℝ) → ND ℝ → ND ℝ) (c : ℕ → ℝ) : Prop where
  lin : ∀ ν x, NDLin sh (T ν x)
  meas : ∀ ν (U : (κ → ℝ) → ND ℝ), NMeas sh U → NMeas sh fun x => T ν x (U x)
  inj : ∀ ν h, Function.Injective (b ν h)
  own : ∀ ν < D, ∀ μ (hμ : μ < D), μ ≠ ν → ∀ x y, T ν (Function.extend (b μ hμ) y x) = T ν x
  nonneg : ∀ ν < D, 0 ≤ c ν
  mean : ∀ ν (h : ν < D), ∀ᵐ x ∂(stdG κ), ∀ Z : ND ℝ, Z.shape = sh →
    ∫⁻ y, ENNReal.ofReal (normSq (T ν (Function.extend (b ν h) y x) Z)) ∂(stdG (ι ν))
      ≤ ENNReal.ofReal (c ν) * ENNReal.ofReal (normSq Z)

variable {sh : List ℕ} {κ : Type} [Fintype κ] {ι : ℕ → Type} [∀ ν, Fintype (ι ν)] {D : ℕ}
  {b : ∀ ν, ν < D → ι ν → κ} {T : ℕ → (κ → ℝ) → ND ℝ → ND ℝ} {c : ℕ → ℝ}

theorem RandOps.chain_meas (h : RandOps sh ι D b T c) : ∀ (n : ℕ) (U : (κ → ℝ) → ND ℝ), NMeas sh U →
    NMeas sh fun x => opChain (fun k => T k x) n (U x)
  | 0, _, hU => hU
  | n + 1, U, hU => h.chain_meas n _ (h.meas n U hU)

/-- the mean squared norm behind the maps -/
theorem RandOps.chain (h : RandOps sh ι D b T c) : ∀ n ≤ D, ∀ U : (κ → ℝ) → ND ℝ, NMeas sh U →
    (∀ μ (hμ : μ < D), μ < n → ∀ x y, U (Function.extend (b μ hμ) y x) = U x) →
    ∫⁻ x, ENNReal.ofReal (normSq (opChain (fun k => T k x) n (U x))) ∂(stdG κ)
      ≤ (∏ ν ∈ range n, ENNReal.ofReal (c ν)) * ∫⁻ x, ENNReal.ofReal (normSq (U x)) ∂(stdG κ)
  | 0, _, U, _, _ => by simp [opChain]
  | n + 1, hn, U, hU, hi => by
    have hU' := h.meas n U hU
    have ih := h.chain n (by omega) (fun x => T n x (U x)) hU' (fun μ hμ hμn x y => by
      beta_reduce
      rw [h.own n (by omega) μ hμ (by omega) x y, hi μ hμ (by omega) x y])
    refine ih.trans ?_
    rw [prod_range_succ, mul_assoc]
    refine mul_le_mul' le_rfl ?_
    rw [stdG_peel (b n (by omega)) (h.inj n (by omega)) _ (normSq_meas hU').ennreal_ofReal,
      ← lintegral_const_mul _ (normSq_meas hU).ennreal_ofReal]
    refine lintegral_mono_ae ?_
    filter_upwards [h.mean n (by omega)] with x hx
    refine le_trans (le_of_eq (lintegral_congr fun y => ?_)) (hx (U x) (hU.shape x))
    rw [hi n (by omega) (by omega) x y]

/-- **The mean squared error of a product of random maps.** -/
theorem RandOps.mean_error {A : ND ℝ} (h : RandOps A.shape ι D b T c) (δ : ℕ → ℝ) (hδ0 : ∀ ν < D, 0 ≤ δ ν)
    (hδ : ∀ ν < D, ∫⁻ x, ENNReal.ofReal (distSq A (T ν x A)) ∂(stdG κ) ≤ ENNReal.ofReal (δ ν)) :
    ∫⁻ x, ENNReal.ofReal (distSq A (opChain (fun k => T k x) D A)) ∂(stdG κ)
      ≤ ENNReal.ofReal ((∑ m ∈ range D, √((∏ i ∈ range m, c i) * δ m)) ^ 2) := by
  have hA := NMeas.const (α := κ → ℝ) A
  have hU : ∀ m, NMeas A.shape fun x => A.minus (T m x A) := fun m => hA.minus (h.meas m _ hA)
  have hV : ∀ m, NMeas A.shape fun x => opChain (fun k => T k x) m (A.minus (T m x A)) := fun m => h.chain_meas m _ (hU m)
  set f : ℕ → (κ → ℝ) → ℝ≥0∞ := fun m x => ENNReal.ofReal √(normSq (opChain (fun k => T k x) m (A.minus (T m x A)))) with hf
  have hfm : ∀ m, Measurable (f m) := fun m => (normSq_meas (hV m)).sqrt.ennreal_ofReal
  have hnn : ∀ Z : ND ℝ, 0 ≤ normSq Z := fun Z => sumIdx_nonneg fun i => sq_nonneg _
  have hcp : ∀ m < D, 0 ≤ ∏ i ∈ range m, c i := fun m hm =>
    prod_nonneg fun i hi => h.nonneg i (by have := mem_range.1 hi; omega)
  have h1 : ∀ m < D, ∫⁻ x, f m x ^ (2 : ℝ) ∂(stdG κ) ≤ ENNReal.ofReal ((∏ i ∈ range m, c i) * δ m) := by
    intro m hm
    have e : ∀ x, f m x ^ (2 : ℝ) = ENNReal.ofReal (normSq (opChain (fun k => T k x) m (A.minus (T m x A)))) := by
      intro x
      simp only [hf]
      rw [ENNReal.ofReal_rpow_of_nonneg (Real.sqrt_nonneg _) (by norm_num), Real.rpow_two, Real.sq_sqrt (hnn _)]
    rw [lintegral_congr e, ENNReal.ofReal_mul (hcp m hm), ENNReal.ofReal_prod_of_nonneg fun i hi =>
      h.nonneg i (by have := mem_range.1 hi; omega)]
    refine (h.chain m (by omega) _ (hU m) fun μ hμ hμm x y => ?_).trans (mul_le_mul' le_rfl ?_)
    · beta_reduce
      rw [h.own m hm μ hμ (by omega) x y]
    · refine le_trans (le_of_eq (lintegral_congr fun x => ?_)) (hδ m hm)
      rw [normSq_minus]
  have h2 : ∫⁻ x, ENNReal.ofReal (distSq A (opChain (fun k => T k x) D A)) ∂(stdG κ)
      ≤ ∫⁻ x, (∑ m ∈ range D, f m x) ^ (2 : ℝ) ∂(stdG κ) := by
    refine lintegral_mono fun x => ?_
    have := opChain_error (fun k => h.lin k x) D
    simp only [hf]
    rw [← ENNReal.ofReal_sum_of_nonneg fun m _ => Real.sqrt_nonneg _,
      ENNReal.ofReal_rpow_of_nonneg (sum_nonneg fun m _ => Real.sqrt_nonneg _) (by norm_num), Real.rpow_two]
    refine ENNReal.ofReal_le_ofReal ?_
    exact (Real.sqrt_le_left (sum_nonneg fun m _ => Real.sqrt_nonneg _)).1 this
  refine h2.trans ?_
  have h3 := lintegral_sum_sq (stdG κ) f hfm D
  have h4 : ∑ m ∈ range D, (∫⁻ x, f m x ^ (2 : ℝ) ∂(stdG κ)) ^ (1 / (2 : ℝ))
      ≤ ENNReal.ofReal (∑ m ∈ range D, √((∏ i ∈ range m, c i) * δ m)) := by
    rw [ENNReal.ofReal_sum_of_nonneg fun m _ => Real.sqrt_nonneg _]
    refine sum_le_sum fun m hm => ?_
    have hm := mem_range.1 hm
    rw [Real.sqrt_eq_rpow, ← ENNReal.ofReal_rpow_of_nonneg (mul_nonneg (hcp m hm) (hδ0 m hm)) (by norm_num)]
    exact ENNReal.rpow_le_rpow (h1 m hm) (by norm_num)
  have h5 := ENNReal.rpow_le_rpow (h3.trans h4) (show (0 : ℝ) ≤ 2 by norm_num)
  rw [← ENNReal.rpow_mul, show 1 / (2 : ℝ) * 2 = 1 by norm_num, ENNReal.rpow_one,
    ENNReal.ofReal_rpow_of_nonneg (sum_nonneg fun m _ => Real.sqrt_nonneg _) (by norm_num), Real.rpow_two] at h5
  exact h5

end TTS
