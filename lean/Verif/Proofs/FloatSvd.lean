import Verif.Proofs.ApproxSvd
import Verif.Proofs.FloatRound
import Verif.Model.FloatSvd

/-! # `tt_svd` in floating point arithmetic -/

namespace TTS

open Finset TTS.Spec

/-- The rounded product of the singular values and the right singular vectors. -/
theorem fl_sv {u : ℝ} (hu : 0 ≤ u) {V W : ND ℝ} {S : List ℝ} {k v N : ℕ} (hV : V.shape = [v, N]) (hk : k ≤ v) (hkS : k ≤ S.length)
    (hW : FlMatmul u (ND.diag (S.take k)) (V.rows 0 k) W) :
    W.shape = [k, N] ∧ ((ND.diag (S.take k)).matmul (V.rows 0 k)).shape = [k, N] ∧
      frobD ((ND.diag (S.take k)).matmul (V.rows 0 k)) W ≤ flErr u k * frobN ((ND.diag (S.take k)).matmul (V.rows 0 k)) := by
  have hVr : (V.rows 0 k).shape = [k, N] := by rw [ND.rows_shape hV]; congr 1; omega
  have hdiag : (ND.diag (S.take k)).shape = [k, k] := by
    show [(S.take k).length, (S.take k).length] = _
    rw [List.length_take, min_eq_left hkS]
  have hP : ((ND.diag (S.take k)).matmul (V.rows 0 k)).shape = [k, N] := ND.matmul_shape' hdiag hVr
  have h1 := NDNear.matmul hu le_rfl le_rfl (NDNear.rfl' (ND.diag (S.take k))) (NDNear.rfl' (V.rows 0 k)) hW
  have hd1 : (ND.diag (S.take k)).dim 1 = k := by simp [ND.dim, hdiag]
  rw [hd1, mul_one, mul_one] at h1
  obtain ⟨M, hM⟩ : ∃ M, M = (ND.diag (S.take k)).abs.matmul (V.rows 0 k).abs := ⟨_, rfl⟩
  rw [← hM] at h1
  have hMs : M.shape = [k, N] := h1.2.1.trans hP
  have hMn : frobN M = frobN ((ND.diag (S.take k)).matmul (V.rows 0 k)) := by
    have hg : ∀ t < k, ∀ y, M.get [t, y] = |((ND.diag (S.take k)).matmul (V.rows 0 k)).get [t, y]| := by
      intro t ht y
      have hz : ∀ z ∈ range k, z ≠ t → (ND.diag (S.take k)).get [t, z] = 0 := fun z _ hz => by rw [ND.diag_get, if_neg (Ne.symm hz)]
      rw [hM, ND.matmul_get (A := (ND.diag (S.take k)).abs) hdiag (B := (V.rows 0 k).abs) hVr, ND.matmul_get hdiag hVr,
        sum_eq_single t, sum_eq_single t]
      · rw [ND.abs_get, ND.abs_get, abs_mul]
      · intro z hz' hne; rw [hz z hz' hne, zero_mul]
      · intro h; exact absurd (mem_range.2 ht) h
      · intro z hz' hne; rw [ND.abs_get (ND.diag _), hz z hz' hne, abs_zero, zero_mul]
      · intro h; exact absurd (mem_range.2 ht) h
    refine (sq_eq_sq₀ (frobN_nonneg _) (frobN_nonneg _)).1 ?_
    rw [frobN_mat hMs, frobN_mat hP]
    exact sum_congr rfl fun t ht => sum_congr rfl fun y _ => by rw [hg t (by simpa using ht), sq_abs]
  refine ⟨h1.1.trans hP, hP, ?_⟩
  have h0 : 0 ≤ flErr u k := sub_nonneg.2 (one_le_pow_u hu _)
  rw [← hMn]
  exact frobD_of_entries h0 h1.2.1 fun i => by rw [abs_sub_comm]; exact (h1.2.2 i).1

/-- What one inexact step does to norms and distances, with the rounded next array. -/
structure FlStep (ε ρ : ℝ) (A U : ND ℝ) (r n : ℕ) (rest : List ℕ) (k kk : ℕ) (a' : ℕ → List ℕ → ℝ) : Prop where
  next : dL k rest a' zL ≤ (1 + ρ) ^ 2 * dL r (n :: rest) (entL A) zL
  grow : ∀ T, dL r (n :: rest) (app U n k T) zL ≤ (1 + ρ) * dL k rest T zL
  err : ∀ G, SplitsL r (n :: rest) G 0 kk → ∃ G', (∀ mu w, SplitsL r (n :: rest) G (mu + 1) w → SplitsL k rest G' mu w) ∧
    dL k rest a' G' ≤ dL r (n :: rest) (entL A) G + (ρ + ρ * (1 + ρ)) * dL r (n :: rest) (entL A) zL ∧
    ∀ T, dL r (n :: rest) (entL A) (app U n k T) ≤ ρ * dL r (n :: rest) (entL A) zL
      + √ ((dL r (n :: rest) (entL A) G + ρ * dL r (n :: rest) (entL A) zL) ^ 2
        + (dL k rest a' T + ρ * (1 + ρ) * dL r (n :: rest) (entL A) zL) ^ 2) + ρ * dL k rest T zL
  orth : ∀ s < k, ∀ t < k, |∑ j ∈ range (r * n), U.get [j, s] * U.get [j, t] - if s = t then 1 else 0| ≤ 2 * ε + ε ^ 2

theorem flStep_of {ε ρ ξ : ℝ} (hε : 0 ≤ ε) (hξ : 0 ≤ ξ) (hρ : ρ = ε + (1 + ε) * ξ) {A U V : ND ℝ} {S : List ℝ} {r n : ℕ}
    {rest : List ℕ} {k kk : ℕ} {a' a'' : ℕ → List ℕ → ℝ} (st : ApproxStep ε A U S V r n rest k kk a')
    (hd : dL k rest a' a'' ≤ ξ * dL k rest a' zL) : FlStep ε ρ A U r n rest k kk a'' := by
  obtain ⟨s1, s2, s3, s4⟩ := st
  have hερ : ε ≤ ρ := by rw [hρ]; nlinarith [mul_nonneg hε hξ]
  have hρ0 : 0 ≤ ρ := hε.trans hερ
  obtain ⟨a, ha⟩ : ∃ a, a = dL r (n :: rest) (entL A) zL := ⟨_, rfl⟩
  have ha0 : 0 ≤ a := by rw [ha]; exact dL_nonneg _ _ _ _
  rw [← ha] at s1
  have hd' : dL k rest a' a'' ≤ ξ * (1 + ε) ^ 2 * a := by
    refine hd.trans ?_
    rw [mul_assoc]; exact mul_le_mul_of_nonneg_left s1 hξ
  have e1 : 1 + ρ = (1 + ε) * (1 + ξ) := by rw [hρ]; ring
  have p0 : 0 ≤ (1 + ε) * ξ := by positivity
  have k1 : (1 + ε) ^ 2 + ξ * (1 + ε) ^ 2 ≤ (1 + ρ) ^ 2 := by
    rw [e1]
    have : ((1 + ε) * (1 + ξ)) ^ 2 - ((1 + ε) ^ 2 + ξ * (1 + ε) ^ 2) = (1 + ε) ^ 2 * (1 + ξ) * ξ := by ring
    have h : 0 ≤ (1 + ε) ^ 2 * (1 + ξ) * ξ := by positivity
    linarith
  have k2 : ε + ε * (1 + ε) + ξ * (1 + ε) ^ 2 ≤ ρ + ρ * (1 + ρ) := by
    have : ρ + ρ * (1 + ρ) = (1 + ρ) ^ 2 - 1 := by ring
    rw [this]
    have : ε + ε * (1 + ε) = (1 + ε) ^ 2 - 1 := by ring
    linarith
  have k3 : ε * (1 + ε) + ξ * (1 + ε) ^ 2 ≤ ρ * (1 + ρ) := by
    have : ρ * (1 + ρ) - (ε * (1 + ε) + ξ * (1 + ε) ^ 2) = (1 + ε) * ξ * ((1 + ε) * (1 + ξ) - 1) := by rw [hρ]; ring
    have h : 0 ≤ (1 + ε) * ξ * ((1 + ε) * (1 + ξ) - 1) := mul_nonneg p0 (by nlinarith [mul_nonneg hε hξ])
    linarith
  refine ⟨?_, fun T => (s2 T).trans (mul_le_mul_of_nonneg_right (by linarith) (dL_nonneg _ _ _ _)), ?_, s4⟩
  · rw [← ha]
    have h := dL_triangle k rest a'' a' zL
    rw [dL_symm k rest a'' a'] at h
    have := mul_le_mul_of_nonneg_right k1 ha0
    linarith
  · intro G hG
    obtain ⟨G', g1, g2, g3⟩ := s3 G hG
    rw [← ha] at g2 g3 ⊢
    refine ⟨G', g1, ?_, fun T => (g3 T).trans ?_⟩
    · have h := dL_triangle k rest a'' a' G'
      rw [dL_symm k rest a'' a'] at h
      have := mul_le_mul_of_nonneg_right k2 ha0
      linarith
    · have h := dL_triangle k rest a' a'' T
      have hT := mul_le_mul_of_nonneg_right hερ (dL_nonneg k rest T zL)
      have hA := mul_le_mul_of_nonneg_right hερ ha0
      have h3 := mul_le_mul_of_nonneg_right k3 ha0
      have hx := dL_nonneg r (n :: rest) (entL A) G
      have hy := dL_nonneg k rest a' T
      refine add_le_add (add_le_add hA (Real.sqrt_le_sqrt (add_le_add (pow_le_pow_left₀ (by positivity) (by linarith) 2)
        (pow_le_pow_left₀ (by positivity) (by linarith) 2)))) hT

theorem flTtSvdLoop_approx {u : ℝ} (hu : 0 ≤ u) {la : LinAlg} {ε ρ : ℝ} {R : ℕ} (hε : 0 ≤ ε) (hR1 : 1 ≤ R)
    (hρ : ρ = ε + (1 + ε) * flErr u R) (hs : la.SVDThinApprox ε) :
    ∀ (sh : List ℕ) (A : ND ℝ) (r : ℕ) (ranks : List ℕ),
    A.shape = r :: sh → 0 < r → (∀ m ∈ sh, 0 < m) → ranks.length + 1 = sh.length → (∀ k ∈ ranks, k ≤ R) →
    ∀ res, FlTtSvdLoop u la A r sh ranks res →
    ∃ cs, res = .ok cs ∧ TTChain r cs 1 ∧ coreShape cs = sh ∧
      (∀ C ∈ cs.dropLast, C.NearLeftOrthogonal (2 * ε + ε ^ 2)) ∧
      (∀ k < ranks.length, 1 ≤ bnd cs 1 (k + 1) ∧ bnd cs 1 (k + 1) ≤ max 1 (ranks.getD k 0)) ∧
      dL r sh (fun x p => ttVal cs p x 0) zL ≤ (1 + ρ) ^ (3 * ranks.length) * dL r sh (entL A) zL ∧
      ∀ G, (∀ mu < ranks.length, SplitsL r sh G mu (ranks.getD mu 0)) →
        dL r sh (entL A) (fun x p => ttVal cs p x 0) ≤ √ (ranks.length : ℝ) * dL r sh (entL A) G
          + ranks.length * (4 + 2 * √ (ranks.length : ℝ)) * ρ * (1 + ρ) ^ (3 * ranks.length) * dL r sh (entL A) zL
  | [], A, r, ranks, _, _, _, hl, _, _, _ => by simp at hl
  | [n], A, r, ranks, hA, hr, hpos, hl, hRk, res, hres => by
    have : ranks = [] := by
      have : ranks.length = 0 := by simpa using hl
      exact List.eq_nil_of_length_eq_zero this
    subst this
    have hre : A.reshape? [r, n, 1] = .ok (A.reshape [r, n, 1]) := by
      unfold ND.reshape?; rw [if_pos (by rw [hA]; simp)]
    have hval : ∀ x < r, ∀ p, InR [n] p → ttVal [A.reshape [r, n, 1]] p x 0 = entL A x p := by
      intro x _ p hp
      match p, hp with
      | [i], _ =>
        have e := ND.reshape_add_last_one (A := A) (s := [r, n]) hA [x, i]
        rw [ttVal_cons (C := A.reshape [r, n, 1]) (r := r) (n := n) (t := 1) rfl, sum_range_one, ttVal_nil_nil, if_pos rfl, mul_one,
          show [x, i, 0] = [x, i] ++ [0] from rfl, show [r, n, 1] = [r, n] ++ [1] from rfl, e]
        rfl
    refine ⟨[A.reshape [r, n, 1]], ?_, ⟨n, 1, rfl, rfl⟩, rfl, by simp, fun k hk => by simp at hk, ?_, ?_⟩
    · have hres : res = (ttSvdLast A r n).map fun C => [C] := hres
      rw [hres, ttSvdLast, hre]; rfl
    · rw [dL_congr (G' := zL) hval fun _ _ _ _ => rfl]; simp
    · intro G _
      rw [dL_congr (F' := entL A) (fun _ _ _ _ => rfl) hval]
      have : dL r [n] (entL A) (entL A) = 0 := by
        unfold dL distL; simp
      rw [this]; simp
  | n :: m :: rest', A, r, [], hA, hr, hpos, hl, hRk, res, hres => by simp at hl
  | n :: m :: rest', A, r, kk :: ranks, hA, hr, hpos, hl, hRk, res, hres => by
    have hn : 0 < n := hpos n (by simp)
    obtain ⟨rest, hrest⟩ : ∃ rest, rest = m :: rest' := ⟨_, rfl⟩
    have hposr : ∀ w ∈ rest, 0 < w := fun w hw => hpos w (by rw [hrest] at hw; simp [hw])
    have hM : A.matricize [0, 1] true = A.reshape [r * n, rest.prod] := by
      have := matricize_range_true A 2 (by rw [hA]; simp)
      rw [hA] at this
      have e1 : (List.take 2 (r :: n :: m :: rest')).prod = r * n := by simp
      have e2 : (List.drop 2 (r :: n :: m :: rest')).prod = rest.prod := by rw [hrest]; rfl
      rw [e1, e2] at this
      exact this
    have hap := hs (A.matricize [0, 1] true) (r * n) rest.prod (by rw [hM]; rfl)
    generalize hUSV : la.svdThin (A.matricize [0, 1] true) = USV at hap
    rw [hM] at hap
    obtain ⟨U, S, V⟩ := USV
    simp only at hap
    have hUs := hap.1
    have hVs := hap.2.1
    have hSl : S.length = min (r * n) rest.prod := by
      obtain ⟨_, _, M', U', V', _, h, _⟩ := hap
      exact h.length
    have hU1 : U.dim 1 = min (r * n) rest.prod := by simp [ND.dim, hUs]
    have hmin : 1 ≤ min (r * n) rest.prod := le_min (Nat.mul_pos hr hn) (prod_pos_of hposr)
    generalize hk : max (min (U.dim 1) kk) 1 = k
    rw [hU1] at hk
    have hk1 : 1 ≤ k := by rw [← hk]; exact le_max_right _ _
    have hku : k ≤ min (r * n) rest.prod := by rw [← hk]; omega
    obtain ⟨s3, s4, s5, s6⟩ := step_shapes hUs hVs hSl hku
    have hξ : 0 ≤ flErr u R := sub_nonneg.2 (one_le_pow_u hu _)
    have hρ0 : 0 ≤ ρ := by rw [hρ]; positivity
    obtain ⟨W, hW, hres⟩ := hres
    rw [hUSV] at hW hres
    dsimp only at hW hres
    rw [hU1, hk] at hW hres
    rw [s3] at hres
    dsimp only at hres
    rw [← hrest] at hres
    have hkR : k ≤ R := by
      have := hRk kk (by simp)
      omega
    obtain ⟨w1, w2⟩ := fl_sv hu hVs hku (by rw [hSl]; exact hku) hW
    have w3 : W.reshape? (k :: rest) = .ok (W.reshape (k :: rest)) := by
      unfold ND.reshape?; rw [if_pos (by rw [w1]; simp)]
    rw [w3] at hres
    dsimp only at hres
    obtain ⟨rs, hrs, rfl⟩ := hres
    generalize hcore : (U.cols 0 k).reshape [r, n, k] = core at s3 s5 ⊢
    generalize hB : ((ND.diag (S.take k)).matmul (V.rows 0 k)).reshape (k :: rest) = B at s4 s6
    generalize hA' : W.reshape (k :: rest) = A' at hrs
    have hcs : core.shape = [r, n, k] := by rw [← hcore]; rfl
    have hA's : A'.shape = k :: rest := by rw [← hA']; rfl
    have st := flStep_of hε (sub_nonneg.2 (one_le_pow_u hu _)) hρ (approxStep hε (kk := kk) (by rw [hA, hrest]) hap hk1 hku
      (by rw [← hk]; omega) (entL B) s6) (a'' := entL A') (by
        have hBs : B.shape = k :: rest := by rw [← hB]; rfl
        have hds : ((ND.diag (S.take k)).matmul (V.rows 0 k)).shape = [k, rest.prod] := w2.1
        have pr : (k :: rest).prod = ((ND.diag (S.take k)).matmul (V.rows 0 k)).shape.prod := by rw [hds]; simp
        rw [dL_ent hBs, dL_ent_zero hBs, ← hB, ← hA']
        unfold frobD frobN
        rw [distSq_reshape (w1.trans hds.symm) pr, normSq_reshape' pr]
        refine w2.2.trans (mul_le_mul_of_nonneg_right ?_ (frobN_nonneg _))
        exact sub_le_sub_right (pow_le_pow_right₀ (by linarith) hkR) 1)
    rw [hrest] at hrs
    obtain ⟨cs, rfl, c2, c3, c4, c6, c7, c8⟩ := flTtSvdLoop_approx hu hε hR1 hρ hs (m :: rest') A' k ranks
      (by rw [hA's, hrest]) hk1 (by rw [← hrest]; exact hposr) (by simpa using hl) (fun j hj => hRk j (by simp [hj])) _ hrs
    rw [← hrest] at c3 c7 c8
    have hcne : cs ≠ [] := by
      intro h; rw [h, hrest] at c3; simp [coreShape] at c3
    have hval : ∀ x < r, ∀ p, InR (n :: rest) p →
        ttVal (core :: cs) p x 0 = app U n k (fun t q => ttVal cs q t 0) x p := by
      intro x _ p hp
      match p, hp with
      | i :: q, hp =>
        rw [ttVal_cons hcs]
        show _ = ∑ t ∈ range k, _
        exact sum_congr rfl fun t ht => by rw [s5 x i hp.1 t (by simpa using ht)]
    refine ⟨core :: cs, rfl, ⟨n, k, hcs, c2⟩, ?_, ?_, ?_, ?_, ?_⟩
    · show core.dim 1 :: coreShape cs = _
      rw [c3, (dim_of_shape3 hcs).2.1, hrest]
    · intro E hE
      rw [List.dropLast_cons_of_ne_nil hcne] at hE
      rcases List.mem_cons.1 hE with rfl | hE
      · intro a ha b hb
        rw [(dim_of_shape3 hcs).2.2] at ha hb
        rw [(dim_of_shape3 hcs).1, (dim_of_shape3 hcs).2.1]
        have := st.orth a ha b hb
        rw [range_mul_sum] at this
        have e : ∑ i ∈ range r, ∑ j ∈ range n, E.get [i, j, a] * E.get [i, j, b]
            = ∑ i ∈ range r, ∑ j ∈ range n, U.get [i * n + j, a] * U.get [i * n + j, b] :=
          sum_congr rfl fun i _ => sum_congr rfl fun j hj => by
            rw [s5 i j (by simpa using hj) a ha, s5 i j (by simpa using hj) b hb]
        rw [e]
        exact this
      · exact c4 E hE
    · intro j hj
      cases j with
      | zero =>
        rw [bnd_succ, bnd_chain c2]
        refine ⟨hk1, ?_⟩
        rw [← hk, List.getD_cons_zero]; omega
      | succ j =>
        rw [bnd_succ, List.getD_cons_succ]
        exact c6 j (by simpa using hj)
    · rw [← hrest, dL_congr (G' := zL) hval fun _ _ _ _ => rfl, List.length_cons]
      have h1 := st.grow fun t q => ttVal cs q t 0
      have h2 := mul_le_mul_of_nonneg_left c7 (show 0 ≤ 1 + ρ by linarith)
      have h3 := mul_le_mul_of_nonneg_left st.next (show 0 ≤ (1 + ρ) * (1 + ρ) ^ (3 * ranks.length) by positivity)
      have e : (1 + ρ) ^ (3 * (ranks.length + 1)) = (1 + ρ) * (1 + ρ) ^ (3 * ranks.length) * (1 + ρ) ^ 2 := by ring
      rw [e]
      linarith
    · intro G hG
      rw [← hrest] at hG ⊢
      rw [dL_congr (F' := entL A) (fun _ _ _ _ => rfl) hval]
      have h0 := hG 0 (by simp)
      rw [List.getD_cons_zero] at h0
      obtain ⟨G', g1, g2, g3⟩ := st.err G h0
      have IH := c8 G' fun mu hmu => g1 mu _ (by
        have := hG (mu + 1) (by simpa using hmu)
        rwa [List.getD_cons_succ] at this)
      refine (g3 _).trans ?_
      rw [List.length_cons]
      exact approx_arith hρ0 (dL_nonneg _ _ _ _) (dL_nonneg _ _ _ _) ranks.length _ st.next g2 (dL_nonneg _ _ _ _) IH c7

end TTS
