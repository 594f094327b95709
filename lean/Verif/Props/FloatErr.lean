import Verif.Spec.FloatErr
import Verif.Props.FloatOrth
import Verif.Props.RoundSum

/-!
# C110: the options of `TensorTrain.error` in floating point arithmetic

The program is `TT.FlErrorWith` (`Model/FloatErr.lean`), the bounds are in `Spec/FloatErr.lean`.
-/

namespace TTS.Props

open TTS Finset

/-- the quotient of two perturbed numbers -/
theorem quot_near {u D F B N v n δ : ℝ} (hu : 0 ≤ u) (hD : 0 ≤ D) (hv : |v - D| ≤ B) (hn : |n - F| ≤ N)
    (hNF : N < F) (hδ : |δ| ≤ u) : 0 < n ∧ |v / n * (1 + δ) - D / F| ≤ quotBound u D F B N := by
  have hN0 : 0 ≤ N := (abs_nonneg _).trans hn
  have hB0 : 0 ≤ B := (abs_nonneg _).trans hv
  have hF : 0 < F := hN0.trans_lt hNF
  have hnF : F - N ≤ n := by have := (abs_le.1 hn).1; linarith
  have hFN : 0 < F - N := by linarith
  have n0 : 0 < n := by linarith
  refine ⟨n0, ?_⟩
  have hR : 0 ≤ D / F := div_nonneg hD hF.le
  have h1 : |v / n - D / F| ≤ (B + D / F * N) / (F - N) := by
    have e : v / n - D / F = ((v - D) - D / F * (n - F)) / n := by field_simp; ring
    rw [e, abs_div, abs_of_pos n0]
    have h2 : |(v - D) - D / F * (n - F)| ≤ B + D / F * N := by
      refine (abs_sub _ _).trans (add_le_add hv ?_)
      rw [abs_mul, abs_of_nonneg hR]
      exact mul_le_mul_of_nonneg_left hn hR
    exact div_le_div₀ (by positivity) h2 hFN hnF
  obtain ⟨w, hw⟩ : ∃ w, w = (B + D / F * N) / (F - N) := ⟨_, rfl⟩
  have hw0 : 0 ≤ w := by rw [hw]; positivity
  unfold quotBound
  rw [← hw] at h1 ⊢
  generalize D / F = R at *
  generalize v / n = q at *
  have e : q * (1 + δ) - R = (q - R) * (1 + δ) + R * δ := by ring
  rw [e]
  refine (abs_add_le _ _).trans ?_
  rw [abs_mul, abs_mul, abs_of_nonneg hR]
  have h3 : |1 + δ| ≤ 1 + u := (abs_add_le _ _).trans (by rw [abs_one]; linarith)
  have h4 := mul_le_mul h1 h3 (abs_nonneg _) hw0
  have h5 := mul_le_mul_of_nonneg_left hδ hR
  linarith

/-- division by a rounded square root -/
theorem rmse_near {u E b p e δ1 δ2 δ3 : ℝ} (hu : 0 ≤ u) (hu1 : u < 1) (hE : 0 ≤ E) (he : |e - E| ≤ b) (hp : 0 < p)
    (h1 : |δ1| ≤ u) (h2 : |δ2| ≤ u) (h3 : |δ3| ≤ u) :
    0 < √ (p * (1 + δ1)) * (1 + δ2) ∧
    |e / (√ (p * (1 + δ1)) * (1 + δ2)) * (1 + δ3) - E / √ p| ≤ rmseBound u E b p := by
  have a1 := abs_le.1 h1
  have a2 := abs_le.1 h2
  have a3 := abs_le.1 h3
  have b1 : 0 < 1 + δ1 := by linarith
  have b2 : 0 < 1 + δ2 := by linarith
  have b3 : 0 < 1 + δ3 := by linarith
  have sp : 0 < √ p := Real.sqrt_pos.2 hp
  have c0 : 0 < √ (1 + δ1) := Real.sqrt_pos.2 b1
  have c1 : 1 - u ≤ √ (1 + δ1) := Real.le_sqrt_of_sq_le (by nlinarith)
  have c2 : √ (1 + δ1) ≤ 1 + u := Real.sqrt_le_iff.2 ⟨by linarith, by nlinarith⟩
  rw [Real.sqrt_mul hp.le]
  refine ⟨by positivity, ?_⟩
  obtain ⟨s, hs⟩ : ∃ s, s = √ (1 + δ1) := ⟨_, rfl⟩
  rw [← hs] at c0 c1 c2 ⊢
  obtain ⟨t, ht⟩ : ∃ t, t = (1 + δ3) / (s * (1 + δ2)) := ⟨_, rfl⟩
  obtain ⟨a, ha⟩ : ∃ a, a = (1 + u) / (1 - u) ^ 2 := ⟨_, rfl⟩
  have hu2 : 0 < 1 - u := by linarith
  have a0 : 0 < a := by rw [ha]; positivity
  have ta : t ≤ a := by
    rw [ht, ha]
    refine div_le_div₀ (by linarith) (by linarith) (by positivity) ?_
    rw [pow_two]
    exact mul_le_mul c1 (by linarith) hu2.le c0.le
  have tb : 1 / a ≤ t := by
    rw [ht, ha, one_div_div, div_le_div_iff₀ (by linarith) (by positivity)]
    have k1 : s * (1 + δ2) ≤ (1 + u) * (1 + u) := mul_le_mul c2 (by linarith) b2.le (by linarith)
    have k2 : (1 - u) ^ 2 * (s * (1 + δ2)) ≤ (1 - u) ^ 2 * ((1 + u) * (1 + u)) := mul_le_mul_of_nonneg_left k1 (by positivity)
    have k3 : (1 - u) ^ 2 * ((1 + u) * (1 + u)) ≤ (1 - u) * (1 + u) := by
      have : (1 - u) * (1 + u) ≤ 1 := by nlinarith
      have h0 : 0 ≤ (1 - u) * (1 + u) := by nlinarith
      nlinarith
    have k4 : (1 - u) * (1 + u) ≤ (1 + δ3) * (1 + u) := mul_le_mul_of_nonneg_right (by linarith) (by linarith)
    linarith
  have t0 : 0 < t := lt_of_lt_of_le (by positivity) tb
  have hk : |t - 1| ≤ a - 1 := by
    rw [abs_le]
    refine ⟨?_, by linarith⟩
    have h5 : 2 ≤ a + 1 / a := by
      have e : a + 1 / a - 2 = (a - 1) ^ 2 / a := by field_simp; ring
      have : 0 ≤ (a - 1) ^ 2 / a := by positivity
      linarith
    linarith
  have e1 : e / (√ p * s * (1 + δ2)) * (1 + δ3) - E / √ p = ((e - E) * t + E * (t - 1)) / √ p := by
    rw [ht]
    field_simp
    ring
  rw [e1, abs_div, abs_of_pos sp]
  unfold rmseBound
  rw [← ha]
  refine div_le_div_of_nonneg_right ((abs_add_le _ _).trans ?_) sp.le
  rw [abs_mul, abs_mul, abs_of_nonneg hE, abs_of_pos t0]
  have k1 := mul_le_mul he ta t0.le ((abs_nonneg _).trans he)
  have k2 := mul_le_mul_of_nonneg_left hk hE
  linarith

/-- **C110.** `X.error(Y, relative, rmse)` for tensor trains in floating point arithmetic: every QR factorisation has relative error at
most `ε`, every other operation relative error `u < 1`.  For trains of the same shape with at least two modes every run gives a finite number,
and it differs from the exact value (the distance, divided by the norm of `Y` and the root of the number of entries if asked for) by
at most an explicit bound; for `relative` the norm of `Y` has to exceed the bound on its own error. -/
theorem C110 {u ε ρ : ℝ} {r : ℕ} (hu : 0 ≤ u) (hu1 : u < 1) (hε : 0 ≤ ε) {la : LinAlg} (hq : la.QRApprox ε) {X Y : TT ℝ}
    (hX : X.Valid) (hY : Y.Valid) (hs : X.shape = Y.shape) (h2 : 2 ≤ X.shape.length) (hp : X.Pos) (hpY : Y.Pos)
    (hr : ∀ k ∈ List.zipWith (· + ·) X.rank Y.rank, k ≤ r) (hrY : ∀ k ∈ Y.rank, k ≤ r) (hρ : ρ = ε + (1 + ε) * flErr u r)
    {relative rmse : Bool} (hn : relative = true → normFloatBound u ρ Y < frobN Y.toNumpy)
    {res : Except PyErr PyFloat} (hres : X.FlErrorWith u la Y relative rmse res) :
    ∃ x, res = .ok (.val x) ∧ |x - trueError X Y relative rmse| ≤ errorWithBound u ρ X Y relative rmse := by
  obtain ⟨err, he, hres⟩ := hres
  obtain ⟨v, rfl, hv⟩ := C104_error hu hε hq hX hY hs h2 hp hr hρ he
  have hv : |v - frobD X.toNumpy Y.toNumpy| ≤ errorFloatBound u ρ X Y := hv
  have hD := frobD_nonneg X.toNumpy Y.toNumpy
  have hprod : (0 : ℝ) < X.shape.prod := by
    have : 0 < X.shape.prod := List.prod_pos hp.1
    exact_mod_cast this
  -- the options, for a number `n` that is not zero if it is used
  have key : ∀ n f, (relative = true → 0 < n ∧ ∀ δ : ℝ, |δ| ≤ u → |v / n * (1 + δ) - frobD X.toNumpy Y.toNumpy / frobN Y.toNumpy|
        ≤ quotBound u (frobD X.toNumpy Y.toNumpy) (frobN Y.toNumpy) (errorFloatBound u ρ X Y) (normFloatBound u ρ Y)) →
      FlErrorOpts u X.shape relative rmse n v f →
      ∃ x, f = .val x ∧ |x - trueError X Y relative rmse| ≤ errorWithBound u ρ X Y relative rmse := by
    intro n f hnn hf
    unfold FlErrorOpts at hf
    rw [if_neg (fun h => (hnn h.1).1.ne' h.2)] at hf
    obtain ⟨δ, δ1, δ2, δ3, d0, d1, d2, d3, e', he', hf⟩ := hf
    obtain ⟨b, hb⟩ : ∃ b, b = (if relative then quotBound u (frobD X.toNumpy Y.toNumpy) (frobN Y.toNumpy)
      (errorFloatBound u ρ X Y) (normFloatBound u ρ Y) else errorFloatBound u ρ X Y) := ⟨_, rfl⟩
    have hE0 : 0 ≤ trueError X Y relative false := by
      unfold trueError
      cases relative
      · simpa using hD
      · simpa using div_nonneg hD (frobN_nonneg _)
    have hb1 : |e' - trueError X Y relative false| ≤ b := by
      rw [he', hb]
      unfold trueError
      cases relative
      · simpa using hv
      · simpa using (hnn rfl).2 δ d0
    cases rmse
    · refine ⟨e', by simpa using hf, ?_⟩
      unfold errorWithBound
      rw [← hb]
      exact hb1
    · obtain ⟨s, hs', hf⟩ := (by simpa using hf :
        ∃ s, s = √ ((X.shape.prod : ℝ) * (1 + δ1)) * (1 + δ2) ∧
          f = if s = 0 then (PyFloat.val e').div 0 else .val (e' / s * (1 + δ3)))
      obtain ⟨k1, k2⟩ := rmse_near hu hu1 hE0 hb1 hprod d1 d2 d3
      rw [hs', if_neg k1.ne'] at hf
      refine ⟨_, hf, ?_⟩
      have e1 : trueError X Y relative true = trueError X Y relative false / √ (X.shape.prod : ℝ) := by
        unfold trueError; simp
      rw [e1]
      unfold errorWithBound
      rw [← hb]
      exact k2
  cases hrel : relative
  · rw [hrel] at hres key
    obtain ⟨f, hf, rfl⟩ := (by simpa using hres : ∃ f, FlErrorOpts u X.shape false rmse 0 v f ∧ res = .ok f)
    obtain ⟨x, rfl, hx⟩ := key 0 f (fun h => by cases h) hf
    exact ⟨x, rfl, hx⟩
  · rw [hrel] at hres key
    dsimp only at hres
    rw [if_pos rfl] at hres
    obtain ⟨nrm, hN, hres⟩ := hres
    obtain ⟨n, rfl, hn'⟩ := C104_norm hu hε hq hY hpY hrY hρ hN
    have hn' : |n - frobN Y.toNumpy| ≤ normFloatBound u ρ Y := hn'
    obtain ⟨f, hf, rfl⟩ := hres
    obtain ⟨x, rfl, hx⟩ := key n f (fun _ => ⟨(quot_near hu hD hv hn' (hn hrel) (δ := 0) (by simpa using hu)).1,
      fun δ hδ => (quot_near hu hD hv hn' (hn hrel) hδ).2⟩) hf
    exact ⟨x, rfl, hx⟩

theorem errorOpts_exact {u : ℝ} (hu : 0 ≤ u) (shape : List ℕ) (relative rmse : Bool) (n v : ℝ) :
    FlErrorOpts u shape relative rmse n v (errorOpts shape relative rmse n (.val v)) := by
  unfold FlErrorOpts errorOpts
  by_cases h : relative = true ∧ n = 0
  · rw [if_pos h, if_pos h]
  · rw [if_neg h, if_neg h]
    have hu' : |(0 : ℝ)| ≤ u := by simpa using hu
    refine ⟨0, 0, 0, 0, hu', hu', hu', hu', _, rfl, ?_⟩
    have e0 : (if relative = true then (PyFloat.val v).div n else .val v)
        = PyFloat.val (if relative = true then v / n * (1 + 0) else v) := by
      cases relative
      · rfl
      · have : n ≠ 0 := fun e => h ⟨rfl, e⟩
        simp [PyFloat.div, this]
    cases rmse
    · simpa using e0
    · refine ⟨_, rfl, ?_⟩
      dsimp only
      rw [e0]
      simp only [if_true, add_zero, mul_one]
      by_cases hs : √ (shape.prod : ℝ) = 0
      · rw [if_pos hs, hs]
      · rw [if_neg hs]; simp only [PyFloat.div, if_neg hs]

/-- **C110, the routine of the code.** The result of the model in exact arithmetic is one of the runs, for every unit roundoff. -/
theorem C110_runs {u : ℝ} (hu : 0 ≤ u) (la : LinAlg) (X : TT ℝ) {Y : TT ℝ} (hY : Y.Valid) (relative rmse : Bool) :
    X.FlErrorWith u la Y relative rmse (X.error la Y relative rmse) := by
  have hm : Y.FlMul u (-1) (Y.mul (-1)) := by
    refine ⟨_, flSmul_exact hu _ _, ?_⟩
    have hne := hY.1
    have := TT.mul_cores hne (-1)
    rw [show Y.cores.getLast hne = Y.cores.getLastD (ND.zeros []) by
      rw [List.getLastD_eq_getLast?, List.getLast?_eq_getLast_of_ne_nil hne, Option.getD_some]] at this
    exact congrArg TT.mk this
  refine ⟨_, ⟨_, hm, (C104_runs hu la _).2⟩, ?_⟩
  unfold TT.error
  cases (X.add (Y.mul (-1))).norm la with
  | error e => rfl
  | ok v =>
    dsimp only
    cases relative
    · exact ⟨_, errorOpts_exact hu _ _ _ _ _, rfl⟩
    · rw [if_pos rfl, if_pos rfl]
      refine ⟨_, (C104_runs hu la Y).2, ?_⟩
      cases Y.norm la with
      | error e => rfl
      | ok n => exact ⟨_, errorOpts_exact hu _ _ _ _ _, rfl⟩

/-- **C110, no rounding errors.** Without errors the bound is zero. -/
theorem errorWithBound_exact (X Y : TT ℝ) (relative rmse : Bool) : errorWithBound 0 0 X Y relative rmse = 0 := by
  cases relative <;> cases rmse <;>
    simp [errorWithBound, quotBound, rmseBound, errorFloatBound, normFloatBound, flErr]

/-- **C110, the hypothesis on the norm.** It holds for every tensor train that is not zero when `u` and `ε` are small enough. -/
theorem C110_margin {Y : TT ℝ} (h : 0 < frobN Y.toNumpy) (r : ℕ) : ∃ η > 0, ∀ u ε : ℝ, |u| < η → |ε| < η →
    normFloatBound u (ε + (1 + ε) * flErr u r) Y < frobN Y.toNumpy := by
  have hc : Continuous fun p : ℝ × ℝ => normFloatBound p.1 (p.2 + (1 + p.2) * flErr p.1 r) Y := by
    unfold normFloatBound flErr; fun_prop
  have h0 : normFloatBound 0 (0 + (1 + 0) * flErr 0 r) Y < frobN Y.toNumpy := by
    unfold normFloatBound flErr; simpa using h
  have := hc.continuousAt (x := ((0 : ℝ), (0 : ℝ))) |>.eventually (gt_mem_nhds h0)
  obtain ⟨η, hη, hh⟩ := Metric.eventually_nhds_iff.1 this
  refine ⟨η, hη, fun u ε h1 h2 => hh (y := (u, ε)) ?_⟩
  rw [Prod.dist_eq]
  simpa [Real.dist_eq] using ⟨h1, h2⟩

/-- the entry `[0, 0, 0]` of the train of C9 is not zero -/
theorem x9_norm_pos : 0 < frobN x9.toNumpy := by
  refine Real.sqrt_pos.2 ?_
  unfold normSq
  rw [sumIdx_eq_sum]
  refine sum_pos' (fun i _ => sq_nonneg _) ⟨[0, 0, 0], mem_idxSet.2 (by
    rw [TT.toNumpy_shape x9_valid]; simp [x9, TT.shape, ND.dim, InR]), ?_⟩
  refine pow_pos ?_ 2
  rw [TT.toNumpy_get x9_valid]
  simp [ttEntry, ttVal, x9, ND.dim, sum_range_succ, ND.ofFn_get']
  try norm_num

/-- the hypotheses, with an inexact routine, all operations rounded, both options and two different trains -/
example : ∃ u > 0, ∃ ε > 0, u < 1 ∧ (badQr ε).QRApprox ε ∧ z9.Valid ∧ x9.Valid ∧ z9.shape = x9.shape ∧ 2 ≤ z9.shape.length ∧
    z9.Pos ∧ x9.Pos ∧ (∀ k ∈ List.zipWith (· + ·) z9.rank x9.rank, k ≤ 4) ∧ (∀ k ∈ x9.rank, k ≤ 4) ∧
    normFloatBound u (ε + (1 + ε) * flErr u 4) x9 < frobN x9.toNumpy ∧
    z9.FlErrorWith u (badQr ε) x9 true true (z9.error (badQr ε) x9 true true) := by
  obtain ⟨η, hη, h⟩ := C110_margin x9_norm_pos 4
  have h1 : 0 < min (η / 2) (1 / 2) := by positivity
  have h2 : min (η / 2) (1 / 2) < η := (min_le_left _ _).trans_lt (by linarith)
  have h3 : min (η / 2) (1 / 2) < 1 := (min_le_right _ _).trans_lt (by norm_num)
  refine ⟨_, h1, _, h1, h3, badQr_approx h1.le, ⟨by simp [z9], 2, 1, rfl, 3, 1, rfl, 2, 1, rfl, rfl⟩, x9_valid, rfl,
    by simp [z9, TT.shape], z9_pos, x9_pos, ?_, ?_,
    h _ _ (by rwa [abs_of_pos h1]) (by rwa [abs_of_pos h1]), C110_runs h1.le _ _ x9_valid _ _⟩
  · simp [x9, z9, TT.rank, ND.dim]
  · simp [x9, TT.rank, ND.dim]

end TTS.Props
