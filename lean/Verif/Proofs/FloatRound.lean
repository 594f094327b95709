import Verif.Model.FloatRound
import Verif.Proofs.FloatOrth
import Verif.Proofs.ApproxRound

/-! The rounding sweep with an inexact SVD routine and rounded contractions. -/

namespace TTS
open Finset ND

/-- A core times a matrix. -/
theorem frobN_core_mul {D W : ND ℝ} {q m r k : ℕ} (hD : D.shape = [q, m, r]) (hW : W.shape = [r, k]) :
    frobN (ND.es_ijk_kl_ijl D W) ≤ frobN D * frobN W := by
  have s1 := ND.es_ijk_kl_ijl_shape hD hW
  rw [← frobD_zeros (ND.es_ijk_kl_ijl D W) [], ← frobD_zeros D []]
  refine le_of_sq_le_sq ?_ (mul_nonneg (frobD_nonneg _ _) (frobN_nonneg _))
  rw [mul_pow, frob3 s1, frob3 hD, frobN_mat hW, sum_comm (s := range r), sum_mul]
  refine sum_le_sum fun i _ => ?_
  rw [sum_mul]
  refine sum_le_sum fun j _ => ?_
  rw [mul_sum]
  refine sum_le_sum fun t _ => ?_
  rw [ND.es_ijk_kl_ijl_get hD hW]
  simp only [ND.zeros_get, sub_zero]
  exact sum_mul_sq_le_sq_mul_sq _ _ _

/-- The norm of a core with orthonormal columns. -/
theorem leftOrth_norm {D : ND ℝ} {q m r : ℕ} (hD : D.shape = [q, m, r]) (ho : D.LeftOrthogonal) : frobN D = √ (r : ℝ) := by
  obtain ⟨e0, e1, e2⟩ := dim_of_shape3 hD
  have h : normSq D = r := by
    unfold normSq
    rw [hD]
    show ∑ i ∈ range q, ∑ j ∈ range m, ∑ t ∈ range r, D.get [i, j, t] ^ 2 = r
    have : ∀ i ∈ range q, ∑ j ∈ range m, ∑ t ∈ range r, D.get [i, j, t] ^ 2 = ∑ t ∈ range r, ∑ j ∈ range m, D.get [i, j, t] ^ 2 :=
      fun i _ => sum_comm
    rw [sum_congr rfl this, sum_comm]
    have : ∀ t ∈ range r, ∑ i ∈ range q, ∑ j ∈ range m, D.get [i, j, t] ^ 2 = 1 := by
      intro t ht
      have ht : t < r := by simpa using ht
      have := ho t (by rw [e2]; exact ht) t (by rw [e2]; exact ht)
      rw [e0, e1, if_pos rfl] at this
      rw [← this]
      exact sum_congr rfl fun i _ => sum_congr rfl fun j _ => sq _
    rw [sum_congr rfl this]; simp
  unfold frobN; rw [h]

/-- The factor `U[:, :r] @ np.diag(S[:r])` of an inexact singular value decomposition. -/
theorem us_norm {ε : ℝ} (hε : 0 ≤ ε) {C U Vt US : ND ℝ} {S : List ℝ} {r n s k : ℕ} (hC : C.shape = [r, n, s])
    (h : IsApproxSVD ε (C.reshape [r, n * s]) U S Vt r (n * s) r (n * s)) (hk1 : 1 ≤ k) (hkl : k ≤ min r (n * s))
    (hUS : US.shape = [r, k]) (hUSg : ∀ x, ∀ t < k, US.get [x, t] = U.get [x, t] * S.getD t 0) :
    frobN US ≤ (1 + ε) ^ 2 * frobN C := by
  obtain ⟨hU, hVt, M', U', Vt', hM's, hsvd, e1, e2, e3⟩ := h
  have hprC : ([r, n * s] : List ℕ).prod = C.shape.prod := by rw [hC]; simp
  obtain ⟨c, hc⟩ : ∃ c, c = frobN C := ⟨_, rfl⟩
  have hc0 : 0 ≤ c := by rw [hc]; exact frobN_nonneg _
  rw [frobN_reshape hprC, ← hc] at e1
  have hBn : frobN M' ≤ (1 + ε) * c := by
    have := frobN_le (A := C.reshape [r, n * s]) (B := M') (by rw [hM's]; rfl)
    rw [frobN_reshape hprC, ← hc] at this; linarith
  obtain ⟨US', hUS'⟩ : ∃ W, W = ND.ofFn [r, k] fun i => U'.get [i.getD 0 0, i.getD 1 0] * S.getD (i.getD 1 0) 0 := ⟨_, rfl⟩
  have hUS's : US'.shape = [r, k] := by rw [hUS']; rfl
  have hUS'g : ∀ x, ∀ t < k, US'.get [x, t] = U'.get [x, t] * S.getD t 0 := by
    intro x t ht
    by_cases hx : x < r
    · rw [hUS', ND.ofFn_get (s := [r, k]) (i := [x, t]) ⟨hx, ht, trivial⟩]; rfl
    · rw [ND.supp US' _ (fun hi => hx (by rw [hUS's] at hi; exact hi.1)),
        ND.supp U' _ (fun hi => hx (by rw [hsvd.shapeU] at hi; exact hi.1)), zero_mul]
  have hsum := hsvd.sum_sq (min_le_left _ _) (min_le_right _ _)
  rw [← frobN_mat hM's] at hsum
  have hS : S.getD 0 0 ≤ (1 + ε) * c := by
    refine (abs_le_of_sq_le_sq' (a := S.getD 0 0) (b := (1 + ε) * c) ?_ (by positivity)).2
    have h2 : S.getD 0 0 ^ 2 ≤ ∑ t ∈ range (min r (n * s)), S.getD t 0 ^ 2 :=
      single_le_sum (f := fun t => S.getD t 0 ^ 2) (fun _ _ => sq_nonneg _) (mem_range.2 (by omega))
    rw [← hsum] at h2
    exact h2.trans (pow_le_pow_left₀ (frobN_nonneg _) hBn 2)
  have hS0 := hsvd.nonneg 0
  have hUSn : frobN US' ≤ (1 + ε) * c := by
    refine le_of_sq_le_sq ?_ (by positivity)
    rw [frobN_mat hUS's, sum_comm]
    have : ∀ t ∈ range k, ∑ x ∈ range r, US'.get [x, t] ^ 2 = S.getD t 0 ^ 2 := by
      intro t ht
      have ht : t < k := by simpa using ht
      have ho := hsvd.orthU t (by omega) t (by omega)
      rw [if_pos rfl] at ho
      have : ∀ x ∈ range r, US'.get [x, t] ^ 2 = S.getD t 0 ^ 2 * (U'.get [x, t] * U'.get [x, t]) := by
        intro x _; rw [hUS'g x t ht]; ring
      rw [sum_congr rfl this, ← mul_sum, ho, mul_one]
    rw [sum_congr rfl this]
    have h3 : ∑ t ∈ range k, S.getD t 0 ^ 2 ≤ ∑ t ∈ range (min r (n * s)), S.getD t 0 ^ 2 :=
      sum_le_sum_of_subset_of_nonneg (range_subset_range.2 hkl) fun _ _ _ => sq_nonneg _
    rw [← hsum] at h3
    exact h3.trans (pow_le_pow_left₀ (frobN_nonneg _) hBn 2)
  have hUSd : frobD US US' ≤ ε * ((1 + ε) * c) := by
    refine le_of_sq_le_sq ?_ (by positivity)
    have h1 : frobD U U' ^ 2 ≤ ε ^ 2 := pow_le_pow_left₀ (frobD_nonneg _ _) e2 2
    rw [frobD_mat hU] at h1
    rw [frobD_mat hUS]
    have h2 : ∑ x ∈ range r, ∑ t ∈ range k, (US.get [x, t] - US'.get [x, t]) ^ 2
        ≤ S.getD 0 0 ^ 2 * ∑ x ∈ range r, ∑ t ∈ range r, (U.get [x, t] - U'.get [x, t]) ^ 2 := by
      rw [mul_sum]
      refine sum_le_sum fun x _ => ?_
      rw [mul_sum]
      refine le_trans (sum_le_sum (g := fun t => S.getD 0 0 ^ 2 * (U.get [x, t] - U'.get [x, t]) ^ 2) fun t ht => ?_)
        (sum_le_sum_of_subset_of_nonneg (range_subset_range.2 (show k ≤ r by omega)) fun _ _ _ => by positivity)
      have ht : t < k := by simpa using ht
      rw [hUSg x t ht, hUS'g x t ht, ← sub_mul, mul_pow, mul_comm]
      exact mul_le_mul_of_nonneg_right (pow_le_pow_left₀ (hsvd.nonneg t) (hsvd.antitone 0 t (Nat.zero_le _)) 2) (sq_nonneg _)
    calc _ ≤ _ := h2
      _ ≤ ((1 + ε) * c) ^ 2 * ε ^ 2 := mul_le_mul (pow_le_pow_left₀ hS0 hS 2) h1
        (sum_nonneg fun _ _ => sum_nonneg fun _ _ => sq_nonneg _) (by positivity)
      _ = _ := by ring
  have := frobN_le (A := US') (B := US) (by rw [hUS, hUS's])
  rw [frobD_symm (by rw [hUS, hUS's])] at this
  rw [← hc]
  nlinarith

/-- The rounded next core. -/
theorem fl_next {u : ℝ} (hu : 0 ≤ u) {D U W E US : ND ℝ} {S : List ℝ} {q m r k R r' : ℕ} (hD : D.shape = [q, m, r])
    (hUS : US = (U.cols 0 k).matmul (ND.diag (S.take k))) (hU : U.shape = [r, r']) (hk : k ≤ r') (hkS : k ≤ S.length)
    (hW : FlMatmul u (U.cols 0 k) (ND.diag (S.take k)) W) (hE : FlEinsum u [([.i, .j, .k], D), ([.k, .l], W)] [.i, .j, .l] E)
    (hr : r ≤ R) (hkR : k ≤ R) :
    W.shape = [r, k] ∧ E.shape = [q, m, k] ∧ frobD (ND.es_ijk_kl_ijl D US) E ≤ flErr u (2 * R) * (frobN D * frobN US) := by
  have hUc : (U.cols 0 k).shape = [r, k] := by
    rw [ND.cols_shape hU]; congr 2; omega
  have hdiag : (ND.diag (S.take k)).shape = [k, k] := by
    show [(S.take k).length, (S.take k).length] = _
    rw [List.length_take, min_eq_left hkS]
  have hUSs : US.shape = [r, k] := by rw [hUS]; exact ND.matmul_shape' hUc hdiag
  have h1 := NDNear.matmul hu le_rfl le_rfl (NDNear.rfl' (U.cols 0 k)) (NDNear.rfl' (ND.diag (S.take k))) hW
  have hd1 : (U.cols 0 k).dim 1 = k := by simp [ND.dim, hUc]
  rw [hd1, mul_one, mul_one, ← hUS] at h1
  obtain ⟨M, hM⟩ : ∃ M, M = (U.cols 0 k).abs.matmul (ND.diag (S.take k)).abs := ⟨_, rfl⟩
  rw [← hM] at h1
  have hWs : W.shape = [r, k] := h1.1.trans hUSs
  have hMs : M.shape = [r, k] := h1.2.1.trans hUSs
  have hMn : frobN M = frobN US := by
    have hg : ∀ x, ∀ t < k, M.get [x, t] = |US.get [x, t]| := by
      intro x t ht
      have hz : ∀ y ∈ range k, y ≠ t → (ND.diag (S.take k)).get [y, t] = 0 := fun y _ hy => by rw [ND.diag_get, if_neg hy]
      rw [hM, hUS, ND.matmul_get (A := (U.cols 0 k).abs) hUc (B := (ND.diag (S.take k)).abs) hdiag, ND.matmul_get hUc hdiag,
        sum_eq_single t, sum_eq_single t]
      · rw [ND.abs_get, ND.abs_get, abs_mul]
      · intro y hy hne; rw [hz y hy hne, mul_zero]
      · intro h; exact absurd (mem_range.2 ht) h
      · intro y hy hne; rw [ND.abs_get (ND.diag _), hz y hy hne, abs_zero, mul_zero]
      · intro h; exact absurd (mem_range.2 ht) h
    refine (sq_eq_sq₀ (frobN_nonneg _) (frobN_nonneg _)).1 ?_
    rw [frobN_mat hMs, frobN_mat hUSs]
    exact sum_congr rfl fun x _ => sum_congr rfl fun t ht => by rw [hg x t (by simpa using ht), sq_abs]
  have e : einsumTerms [([Lb.i, .j, .k], D), ([Lb.k, .l], US)] [.i, .j, .l] = r := by
    simp [einsumTerms, lbSummed, lbDim, lbGet?, hD, hUSs, -List.getD_eq_getElem?_getD]
  have h2 := NDNear.einsum2 hu le_rfl (one_le_pow_u hu k) (NDNear.rfl' D) h1 _ _ _ hE
  rw [e, one_mul, ← pow_add] at h2
  have hs : (ND.es_ijk_kl_ijl D US).shape = [q, m, k] := ND.es_ijk_kl_ijl_shape hD hUSs
  refine ⟨hWs, h2.1.trans hs, ?_⟩
  have hle : (1 + u) ^ (r + k) - 1 ≤ flErr u (2 * R) := sub_le_sub_right (pow_le_pow_right₀ (by linarith) (by omega)) 1
  have h0 : 0 ≤ (1 + u) ^ (r + k) - 1 := sub_nonneg.2 (one_le_pow_u hu _)
  have hMm : (ND.es_ijk_kl_ijl D.abs M).shape = (ND.es_ijk_kl_ijl D US).shape := h2.2.1
  refine (frobD_of_entries h0 hMm fun i => ?_).trans (mul_le_mul hle ?_ (frobN_nonneg _) (h0.trans hle))
  · rw [abs_sub_comm]; exact (h2.2.2 i).1
  · have := frobN_core_mul (D := D.abs) (W := M) (by rw [ND.abs_shape]; exact hD) hMs
    rwa [frobN_abs, hMn] at this

/-- What one rounding step does to norms and distances, with the rounded next core `E`. -/
structure FlRoundStep (ε ρ τ : ℝ) (C : ND ℝ) (E : ND ℝ) (Cs' : List (ND ℝ)) (Ds' : List (ND ℝ)) (V : ND ℝ)
    (k s w : ℕ) : Prop where
  next : frobN E ≤ (1 + ρ) ^ 3 * frobN C
  partner : ∃ V', RightPartner ε V V'
  grow : ∀ T, d2 (coreShape (C :: Cs')).reverse s (appR V k T) z2 ≤ (1 + ρ) * d2 (coreShape Cs').reverse k T z2
  err : ∀ G, SplitsAt (coreShape (C :: Cs')).reverse s G Ds'.length w → ∃ G',
    (∀ mu v, mu < Cs'.length → SplitsAt (coreShape (C :: Cs')).reverse s G mu v → SplitsAt (coreShape Cs').reverse k G' mu v) ∧
    d2 (coreShape Cs').reverse k (revVal (E :: Ds')) G'
      ≤ d2 (coreShape (C :: Cs')).reverse s (revVal (C :: Cs')) G + (ρ + ρ * (1 + ρ) * (2 + ρ)) * frobN C ∧
    ∀ T, d2 (coreShape (C :: Cs')).reverse s (revVal (C :: Cs')) (appR V k T) ≤ ρ * frobN C
      + √ ((d2 (coreShape (C :: Cs')).reverse s (revVal (C :: Cs')) G + ρ * frobN C) ^ 2 + w * (τ * ((1 + ρ) * frobN C)) ^ 2
        + (d2 (coreShape Cs').reverse k (revVal (E :: Ds')) T + ρ * (1 + ρ) * (2 + ρ) * frobN C) ^ 2)
      + ρ * d2 (coreShape Cs').reverse k T z2

theorem fl_rho {ε ξ ρ : ℝ} (hε : 0 ≤ ε) (hξ : 0 ≤ ξ) (hρ : ε + ξ ≤ ρ) :
    ε * (1 + ε) * (2 + ε) + ξ * (1 + ε) ^ 2 ≤ ρ * (1 + ρ) * (2 + ρ) := by
  have h1 : ε ≤ ρ := by linarith
  have h2 : (1 + ε) * (2 + ε) ≤ (1 + ρ) * (2 + ρ) := by nlinarith
  have h3 : (1 + ε) ^ 2 ≤ (1 + ρ) * (2 + ρ) := by nlinarith
  have h4 := mul_le_mul_of_nonneg_left h2 hε
  have h5 := mul_le_mul_of_nonneg_left h3 hξ
  have h6 : 0 ≤ (1 + ρ) * (2 + ρ) := by nlinarith
  have h7 := mul_le_mul_of_nonneg_right hρ h6
  nlinarith

theorem flRoundStep_of {ε ρ ξ eps τ : ℝ} (hε : 0 ≤ ε) (hξ : 0 ≤ ξ) (hρ : ε + ξ ≤ ρ) (he : 0 ≤ eps) (hτ : eps ≤ τ)
    {C D D' E US V : ND ℝ} {Ds' : List (ND ℝ)} {q m r n s k w : ℕ} (hD : D.shape = [q, m, r]) (hD' : D'.shape = [q, m, r])
    (hUS : US.shape = [r, k]) (hE : E.shape = [q, m, k]) (hDs' : TTChain 1 Ds'.reverse q) (ho : ∀ A ∈ Ds', A.LeftOrthogonal)
    (hd : frobD (ND.es_ijk_kl_ijl D US) E ≤ ξ * ((1 + ε) ^ 2 * frobN C))
    (st : ApproxRoundStep ε eps C D (D' :: Ds') Ds' US V r n s k w) : FlRoundStep ε ρ τ C E (D' :: Ds') Ds' V k s w := by
  obtain ⟨s1, s2, s3, s4⟩ := st
  have sE := ND.es_ijk_kl_ijl_shape hD hUS
  have hερ : ε ≤ ρ := by linarith
  have hρ0 : 0 ≤ ρ := by linarith
  have key := fl_rho hε hξ hρ
  obtain ⟨c, hc⟩ : ∃ c, c = frobN C := ⟨_, rfl⟩
  have hc0 : 0 ≤ c := by rw [hc]; exact frobN_nonneg _
  rw [← hc] at s1 hd
  have keyc := mul_le_mul_of_nonneg_right key hc0
  have hdd : d2 (coreShape (D' :: Ds')).reverse k (revVal (ND.es_ijk_kl_ijl D US :: Ds')) (revVal (E :: Ds'))
      ≤ ξ * ((1 + ε) ^ 2 * c) := by
    have cs : coreShape (ND.es_ijk_kl_ijl D US :: Ds') = coreShape (D' :: Ds') := by
      rw [coreShape_cons, coreShape_cons, (dim_of_shape3 sE).2.1, (dim_of_shape3 hD').2.1]
    rw [← cs, rev_iso hDs' ho sE hE]; exact hd
  have hερc : ε * c ≤ ρ * c := mul_le_mul_of_nonneg_right hερ hc0
  refine ⟨?_, s2, fun T => ?_, fun G hG => ?_⟩
  · have := frobN_le (A := ND.es_ijk_kl_ijl D US) (B := E) (by rw [sE, hE])
    rw [← hc]
    have e1 : (1 + ε) ^ 3 * c = c + ε * c + ε * (1 + ε) * (2 + ε) * c := by ring
    have e2 : (1 + ρ) ^ 3 * c = c + ρ * c + ρ * (1 + ρ) * (2 + ρ) * c := by ring
    rw [e1] at s1
    rw [e2]
    nlinarith
  · exact (s3 T).trans (mul_le_mul_of_nonneg_right (by linarith) (d2_nonneg _ _ _ _))
  · obtain ⟨G', g1, g2, g3⟩ := s4 G hG
    refine ⟨G', g1, ?_, fun T => ?_⟩
    · have h1 := d2_triangle (coreShape (D' :: Ds')).reverse k (revVal (E :: Ds')) (revVal (ND.es_ijk_kl_ijl D US :: Ds')) G'
      rw [d2_symm _ _ (revVal (E :: Ds')) (revVal (ND.es_ijk_kl_ijl D US :: Ds'))] at h1
      rw [← hc] at g2 ⊢
      nlinarith
    · refine (g3 T).trans ?_
      rw [← hc]
      have hx := d2_nonneg (coreShape (C :: D' :: Ds')).reverse s (revVal (C :: D' :: Ds')) G
      have hy := d2_nonneg (coreShape (D' :: Ds')).reverse k (revVal (ND.es_ijk_kl_ijl D US :: Ds')) T
      have h1 := d2_triangle (coreShape (D' :: Ds')).reverse k (revVal (ND.es_ijk_kl_ijl D US :: Ds')) (revVal (E :: Ds')) T
      have hεc : 0 ≤ ε * c := mul_nonneg hε hc0
      have hδ : 0 ≤ ε * (1 + ε) * (2 + ε) * c := by positivity
      refine add_le_add (add_le_add hερc (Real.sqrt_le_sqrt (add_le_add (add_le_add ?_ ?_) ?_)))
        (mul_le_mul_of_nonneg_right hερ (d2_nonneg _ _ _ _))
      · exact pow_le_pow_left₀ (by linarith) (by linarith) 2
      · refine mul_le_mul_of_nonneg_left (pow_le_pow_left₀ (by positivity) ?_ 2) (Nat.cast_nonneg _)
        exact mul_le_mul hτ (mul_le_mul_of_nonneg_right (by linarith) hc0) (by positivity) (he.trans hτ)
      · exact pow_le_pow_left₀ (by linarith) (by nlinarith) 2

/-- The factors of one step. -/
theorem fl_step_shapes {r n s k : ℕ} {U Vt : ND ℝ} {S : List ℝ} (hU : U.shape = [r, r]) (hVt : Vt.shape = [n * s, n * s])
    (hSl : S.length = min r (n * s)) (hkl : k ≤ min r (n * s)) :
    ((U.cols 0 k).matmul (ND.diag (S.take k))).shape = [r, k] ∧
      (∀ x, ∀ t < k, ((U.cols 0 k).matmul (ND.diag (S.take k))).get [x, t] = U.get [x, t] * S.getD t 0) ∧
      (∀ t < k, ∀ i < n, ∀ y < s, ((Vt.rows 0 k).reshape [k, n, s]).get [t, i, y] = Vt.get [t, i * s + y]) ∧
      (Vt.rows 0 k).reshape? [k, n, s] = .ok ((Vt.rows 0 k).reshape [k, n, s]) := by
  have hUc : (U.cols 0 k).shape = [r, k] := by
    rw [ND.cols_shape hU]; congr 2; omega
  have hdiag : (ND.diag (S.take k)).shape = [k, k] := by
    show [(S.take k).length, (S.take k).length] = _
    rw [List.length_take, hSl, min_eq_left hkl]
  have hVr : (Vt.rows 0 k).shape = [k, n * s] := by
    rw [ND.rows_shape hVt]; congr 1; omega
  refine ⟨ND.matmul_shape' hUc hdiag, ?_, ?_, ?_⟩
  · intro x t ht
    rw [ND.matmul_get hUc hdiag, sum_eq_single t]
    · rw [ND.cols_get hU 0 k x t (by omega), zero_add, ND.diag_get, if_pos rfl]
      congr 1
      rw [List.getD_eq_getElem?_getD, List.getElem?_take, if_pos ht, ← List.getD_eq_getElem?_getD]
    · intro y _ hy; rw [ND.diag_get, if_neg hy, mul_zero]
    · intro h; exact absurd (mem_range.2 ht) h
  · intro t ht i hi y hy
    rw [ND.reshape_split23 hVr t i y hy, ND.rows_get hVt 0 k t _ (by omega), zero_add]
  · unfold ND.reshape?; rw [if_pos (by rw [hVr]; simp)]

theorem flRoundLoop_some {u : ℝ} {la : LinAlg} {eps : ℝ} {mr : List ℕ} {W C : ND ℝ} {Cs : List (ND ℝ)}
    {res : Except PyErr (List (ND ℝ))} (h : TT.FlRoundLoop u la eps mr (some W) (C :: Cs) res) :
    ∃ E, FlEinsum u [([.i, .j, .k], C), ([.k, .l], W)] [.i, .j, .l] E ∧ TT.FlRoundLoop u la eps mr none (E :: Cs) res := by
  cases Cs with
  | nil =>
    obtain ⟨C', h1, h2⟩ := h
    exact ⟨C', h1, C', rfl, h2⟩
  | cons D Ds =>
    obtain ⟨C', h1, h2⟩ := h
    exact ⟨C', h1, C', rfl, h2⟩

theorem flRoundLoop_approx {u : ℝ} (hu : 0 ≤ u) (hu1 : u ≤ 1) {la : LinAlg} {ε ρ : ℝ} {R : ℕ} (hε : 0 ≤ ε)
    (hρ : ε + (√ (R : ℝ) + ε) * flErr u (2 * R) ≤ ρ) (hs : la.SVDApprox ε) (eps : ℝ) (he : 0 ≤ eps) (mr : List ℕ) :
    ∀ (Cs Cs' : List (ND ℝ)) (C : ND ℝ) (r n s : ℕ), C.shape = [r, n, s] → TTChain 1 Cs.reverse r → TTChain 1 Cs'.reverse r →
    List.Forall₂ (Partner ε) Cs Cs' → 0 < n → 0 < s → (∀ D ∈ C :: Cs, 0 < D.dim 0 ∧ 0 < D.dim 1) →
    (∀ D ∈ Cs, D.dim 2 ≤ R) → ∀ res, TT.FlRoundLoop u la eps mr none (C :: Cs) res →
    ∃ N, res = .ok N ∧ TTChain 1 N.reverse s ∧
      coreShape N = coreShape (C :: Cs) ∧ N.length = Cs.length + 1 ∧
      (∀ D ∈ N.dropLast, ∃ D', RightPartner ε D D') ∧
      (∀ k < Cs.length, 1 ≤ bondOf N k ∧ bondOf N k ≤ max 1 (mr.getD (Cs.length - 1 - k) 0) ∧
        bondOf N k ≤ bondOf (C :: Cs) k) ∧
      d2 (coreShape (C :: Cs')).reverse s (revVal N) z2 ≤ (1 + ρ) ^ (4 * Cs.length) * frobN C ∧
      ∀ G, (∀ mu < Cs.length, SplitsAt (coreShape (C :: Cs')).reverse s G mu (mr.getD mu 0)) →
        d2 (coreShape (C :: Cs')).reverse s (revVal (C :: Cs')) (revVal N)
          ≤ √ (Cs.length * d2 (coreShape (C :: Cs')).reverse s (revVal (C :: Cs')) G ^ 2
            + (∑ mu ∈ range Cs.length, (mr.getD mu 0 : ℝ)) * ((1 + u) * eps * ((1 + ρ) ^ (4 * Cs.length) * frobN C)) ^ 2)
          + Cs.length * (5 + 3 * √ (Cs.length : ℝ)) * ρ * (1 + ρ) ^ (4 * Cs.length) * frobN C
  | [], [], C, r, n, s, hC, hCs, hCs', hP, hn, hs0, hpos, _, res, hres => by
    cases hCs
    obtain ⟨C', rfl, rfl⟩ := hres
    have h0 : d2 (coreShape [C']).reverse s (revVal [C']) (revVal [C']) = 0 := by
      unfold d2 dist2
      simp [sumIdx_eq_sum]
    refine ⟨[C'], rfl, ⟨n, s, hC, rfl⟩, rfl, rfl, by simp, fun k hk => by simp at hk, ?_, ?_⟩
    · rw [rev_norm (Cs := []) (r := 1) rfl (by simp) hC]; simp
    · intro G _
      rw [h0]; simp
  | D :: Ds, D' :: Ds', C, r, n, s, hC, hCs, hCs', .cons hPD hPDs, hn, hs0, hpos, hR, res, hres => by
    have hr : 0 < r := by have := (hpos C List.mem_cons_self).1; rwa [(dim_of_shape3 hC).1] at this
    rw [List.reverse_cons] at hCs hCs'
    obtain ⟨q, hD1, m, t, hD2, hD3⟩ := hCs.split
    cases hD3
    obtain ⟨q', hD1', m', t', hD2', hD3'⟩ := hCs'.split
    have hsh : [q', m', t'] = [q, m, r] := by rw [← hD2, ← hD2', hPD.1]
    simp only [List.cons.injEq, and_true] at hsh
    obtain ⟨rfl, rfl, rfl⟩ := hsh
    have hap := hs (C.reshape [t', n * s]) t' (n * s) rfl
    generalize hUSV : la.svd (C.reshape [t', n * s]) = USV at hap
    obtain ⟨U, S, Vt⟩ := USV
    simp only at hap
    have hU := hap.1
    have hVt := hap.2.1
    have hSl : S.length = min t' (n * s) := by
      obtain ⟨_, _, _, _, _, _, h, _⟩ := hap
      exact h.length
    obtain ⟨C', hCC, δ, W, hδ, hW, hres⟩ := hres
    obtain rfl : C = C' := (show C' = C from hCC).symm
    obtain ⟨d0, d1, d2'⟩ := dim_of_shape3 hC
    have hSne : S ≠ [] := by
      intro h
      rw [h] at hSl
      have : 1 ≤ min t' (n * s) := le_min hr (Nat.mul_pos hn hs0)
      simp at hSl; omega
    obtain ⟨k, hk⟩ : ∃ k, k = keepRank S (eps * (1 + δ)) (mr.getD Ds.length 0) := ⟨_, rfl⟩
    have hmin : 1 ≤ min t' (n * s) := le_min hr (Nat.mul_pos hn hs0)
    have hkl : k ≤ min t' (n * s) := by
      rw [hk, ← hSl]; exact keepRank_le _ _ _ (by rw [hSl]; exact hmin)
    have hk1 : 1 ≤ k := by rw [hk]; exact keepRank_pos _ _ _
    rw [d0, d1, d2', hUSV] at hres hW
    dsimp only at hres hW
    rw [if_neg hSne, ← hk] at hres
    rw [← hk] at hW
    obtain ⟨hUS, hUSg, hVg, hre⟩ := fl_step_shapes (k := k) hU hVt hSl hkl
    rw [hre] at hres
    dsimp only at hres
    obtain ⟨rest, hrest, rfl⟩ := hres
    obtain ⟨E, hE0, hrest⟩ := flRoundLoop_some hrest
    obtain ⟨US, hUSe⟩ : ∃ US, US = (U.cols 0 k).matmul (ND.diag (S.take k)) := ⟨_, rfl⟩
    rw [← hUSe] at hUS hUSg
    obtain ⟨V, hVe⟩ : ∃ V, V = (Vt.rows 0 k).reshape [k, n, s] := ⟨_, rfl⟩
    rw [← hVe] at hVg ⊢
    have hV : V.shape = [k, n, s] := by rw [hVe]; rfl
    have htR : t' ≤ R := by have := hR D List.mem_cons_self; rwa [(dim_of_shape3 hD2).2.2] at this
    obtain ⟨-, hE, hEd⟩ := fl_next hu hD2 hUSe hU (by omega) (by rw [hSl]; exact hkl) hW hE0 htR (R := R) (by omega)
    have hlen : Ds.length = Ds'.length := hPDs.length_eq
    have hO' := partner_leftOrth hPDs
    have hδ' := abs_le.1 hδ
    have he' : 0 ≤ eps * (1 + δ) := mul_nonneg he (by linarith)
    have st0 := approxRoundStep hε he' hC hD2 hPD hD1' hO' hap hk hk1 hkl hUS hUSg hV hVg
    have hη : 0 ≤ flErr u (2 * R) := sub_nonneg.2 (one_le_pow_u hu _)
    have hξ : 0 ≤ (√ (R : ℝ) + ε) * flErr u (2 * R) := mul_nonneg (add_nonneg (Real.sqrt_nonneg _) hε) hη
    have hDn : frobN D ≤ √ (R : ℝ) + ε := by
      have h1 := frobN_le (A := D') (B := D) hPD.1.symm
      rw [frobD_symm hPD.1.symm, leftOrth_norm hD2' hPD.2.2] at h1
      have h2 : √ (t' : ℝ) ≤ √ (R : ℝ) := Real.sqrt_le_sqrt (Nat.cast_le.2 htR)
      have h3 := hPD.2.1
      linarith
    have hd : frobD (ND.es_ijk_kl_ijl D US) E ≤ (√ (R : ℝ) + ε) * flErr u (2 * R) * ((1 + ε) ^ 2 * frobN C) := by
      refine hEd.trans ?_
      have h1 := us_norm hε hC hap hk1 hkl hUS hUSg
      calc _ ≤ flErr u (2 * R) * ((√ (R : ℝ) + ε) * ((1 + ε) ^ 2 * frobN C)) :=
            mul_le_mul_of_nonneg_left (mul_le_mul hDn h1 (frobN_nonneg _) (add_nonneg (Real.sqrt_nonneg _) hε)) hη
        _ = _ := by ring
    have st := flRoundStep_of (τ := (1 + u) * eps) hε hξ hρ he' (by nlinarith) hD2 hD2' hUS hE hD1' hO' hd st0
    have hρ0 : 0 ≤ ρ := by linarith
    have hDp := hpos D (by simp)
    rw [(dim_of_shape3 hD2).1, (dim_of_shape3 hD2).2.1] at hDp
    obtain ⟨N, rfl, n2, n3, n4, n5, n6, n7, n8⟩ := flRoundLoop_approx hu hu1 hε hρ hs eps he mr Ds Ds' E q' m' k hE
      hD1 hD1' hPDs hDp.2 hk1 (by
        intro A hA
        rcases List.mem_cons.1 hA with rfl | hA
        · rw [(dim_of_shape3 hE).1, (dim_of_shape3 hE).2.1]; exact hDp
        · exact hpos A (by simp [hA])) (fun A hA => hR A (List.mem_cons_of_mem _ hA)) _ hrest
    have hNne : N ≠ [] := by intro h; rw [h] at n4; simp at n4
    have hcs : coreShape (E :: Ds) = coreShape (D :: Ds) := by
      rw [coreShape_cons, coreShape_cons, (dim_of_shape3 hE).2.1, (dim_of_shape3 hD2).2.1]
    have hcs' : coreShape (E :: Ds') = coreShape (D' :: Ds') := by
      rw [coreShape_cons, coreShape_cons, (dim_of_shape3 hE).2.1, (dim_of_shape3 hD2').2.1]
    rw [hcs'] at n7 n8
    have hval : ∀ p, InR (coreShape (C :: D' :: Ds')).reverse p → ∀ y < s, revVal (V :: N) p y = appR V k (revVal N) p y := by
      intro p hp y _
      have hpl := hp.length
      rw [coreShape_cons C, List.reverse_cons] at hpl
      have hl : p ≠ [] := by intro h; rw [h] at hpl; simp at hpl
      obtain ⟨p', i, rfl⟩ : ∃ p' i, p = p' ++ [i] := ⟨p.dropLast, p.getLast hl, (List.dropLast_append_getLast hl).symm⟩
      rw [revVal_cons hV n2 (by
        rw [n4]
        simp [coreShape_length] at hpl
        omega), appR_concat]
    refine ⟨V :: N, rfl, ?_, ?_, by simp [n4], ?_, ?_, ?_, ?_⟩
    · rw [List.reverse_cons]; exact n2.append ⟨n, s, hV, rfl⟩
    · rw [coreShape_cons, coreShape_cons, n3, hcs, (dim_of_shape3 hV).2.1, (dim_of_shape3 hC).2.1]
    · intro A hA
      rw [List.dropLast_cons_of_ne_nil hNne] at hA
      rcases List.mem_cons.1 hA with rfl | hA
      · exact st.partner
      · exact n5 A hA
    · intro j hj
      cases j with
      | zero =>
        have e0 : bondOf (V :: N) 0 = k := (dim_of_shape3 hV).1
        have e1 : bondOf (C :: D :: Ds) 0 = t' := (dim_of_shape3 hC).1
        rw [e0, e1]
        refine ⟨hk1, ?_, by omega⟩
        have : (D :: Ds).length - 1 - 0 = Ds.length := by simp
        rw [this, hk]; exact keepRank_le_max _ _ _
      | succ j =>
        have hj : j < Ds.length := by simpa using hj
        obtain ⟨m1, m2, m3⟩ := n6 j hj
        have e1 : bondOf (C :: D :: Ds) (j + 1) = bondOf (E :: Ds) j := by
          cases j with
          | zero => show D.dim 0 = (E).dim 0; rw [(dim_of_shape3 hE).1, (dim_of_shape3 hD2).1]
          | succ j => rfl
        have e2 : (D :: Ds).length - 1 - (j + 1) = Ds.length - 1 - j := by simp; omega
        rw [e1, e2]
        exact ⟨m1, m2, m3⟩
    · rw [d2_congr hval (G' := z2) (fun _ _ _ _ => rfl), List.length_cons]
      have h1 := st.grow (revVal N)
      have h2 := mul_le_mul_of_nonneg_left n7 (show 0 ≤ 1 + ρ by linarith)
      have h3 := mul_le_mul_of_nonneg_left st.next (show 0 ≤ (1 + ρ) * (1 + ρ) ^ (4 * Ds.length) by positivity)
      have e : (1 + ρ) ^ (4 * (Ds.length + 1)) = (1 + ρ) * (1 + ρ) ^ (4 * Ds.length) * (1 + ρ) ^ 3 := by ring
      rw [e]
      linarith
    · intro G hG
      rw [d2_congr (F' := revVal (C :: D' :: Ds')) (fun _ _ _ _ => rfl) hval]
      have h0 := hG Ds.length (by simp)
      rw [hlen] at h0
      rw [hlen] at st
      obtain ⟨G', g1, g2, g3⟩ := st.err G h0
      have IH := n8 G' fun mu hmu => g1 mu _ (by simp; omega) (hG mu (by simp; omega))
      refine (g3 _).trans ?_
      rw [List.length_cons, sum_range_succ, hlen]
      rw [hlen] at IH n7
      exact round_arith hρ0 (by positivity) (d2_nonneg _ _ _ _) (frobN_nonneg _) (sum_nonneg fun _ _ => Nat.cast_nonneg _) (Nat.cast_nonneg _)
        Ds'.length (frobN_nonneg _) st.next (d2_nonneg _ _ _ _) g2 (d2_nonneg _ _ _ _) IH n7

end TTS
