import Verif.Proofs.ApproxHmt
import Verif.Proofs.FloatApprox
import Verif.Proofs.FloatOrth
import Verif.Proofs.FloatSketchExact
import Verif.Model.FloatHmt
import Verif.Spec.FloatHmt

/-! The method `hmt` in floating point arithmetic. -/

namespace TTS

open Finset TTS.Props

/-- A train whose cores but the last are near left-orthogonal ones, and whose last core is within `E` of the contraction of the
tensor with the others. -/
theorem frame_run_fl {ε : ℝ} (hε : 0 ≤ ε) {A : ND ℝ} {lr : List ℕ} {Y : TT ℝ} {Q' : ℕ → ND ℝ} {E : ℝ}
    (hd : 2 ≤ A.shape.length) (hl : lr.length = A.shape.length - 1) (hlen : Y.cores.length = A.shape.length)
    (hC : Cores Y.cores (fun k => (1 :: lr ++ [1]).getD k 0) fun k => A.shape.getD k 0)
    {L0 : ND ℝ} (hL0s : L0.shape = (Y.cores.getD (A.shape.length - 1) (ND.zeros [])).shape)
    (hlast : ∀ a < (1 :: lr ++ [1]).getD (A.shape.length - 1) 0, ∀ j < A.shape.getD (A.shape.length - 1) 0,
      L0.get [a, j, 0] = pcL A.shape A.get (coreMats Y.cores) (A.shape.length - 1) a [j])
    (hL0 : frobD (Y.cores.getD (A.shape.length - 1) (ND.zeros [])) L0 ≤ E)
    (hQ' : ∀ mu < A.shape.length - 1, Partner ε (Y.cores.getD mu (ND.zeros [])) (Q' mu))
    (e τ : ℕ → ℝ) (he : ∀ mu < A.shape.length - 1, 0 ≤ e mu)
    (hdef : ∀ cs' : List (ND ℝ), cs'.length = A.shape.length →
      Cores cs' (fun k => (1 :: lr ++ [1]).getD k 0) (fun k => A.shape.getD k 0) →
      (∀ mu < A.shape.length - 1, cs'.getD mu (ND.zeros []) = Q' mu) → ∀ mu < A.shape.length - 1,
      ∃ z : ℕ → List ℕ → ℝ, (∑ a ∈ range ((1 :: lr ++ [1]).getD mu 0), ∑ j ∈ range (A.shape.getD mu 0),
          sumIdx (A.shape.drop (mu + 1)) fun q => (pcL A.shape A.get (coreMats cs') mu a (j :: q)
            - ∑ t ∈ range ((1 :: lr ++ [1]).getD (mu + 1) 0), (cs'.getD mu (ND.zeros [])).get [a, j, t] * z t q) ^ 2)
        ≤ (√ (e mu) + τ mu) ^ 2) :
    frobD A Y.toNumpy ≤ √ (∑ mu ∈ range (A.shape.length - 1), e mu) + √ (∑ mu ∈ range (A.shape.length - 1), τ mu ^ 2)
      + 2 * (A.shape.length - 1 : ℕ) * ε * (1 + ε) ^ (2 * (A.shape.length - 1)) * frobN A
      + (1 + (A.shape.length - 1 : ℕ) * ε * (1 + ε) ^ (A.shape.length - 1)) * E := by
  obtain ⟨N, hN⟩ : ∃ N, N = A.shape.length - 1 := ⟨_, rfl⟩
  rw [← hN] at hlast hQ' hdef he hL0s hL0 ⊢
  obtain ⟨rk, hrk⟩ : ∃ rk : ℕ → ℕ, rk = fun k => (1 :: lr ++ [1]).getD k 0 := ⟨_, rfl⟩
  obtain ⟨n, hn'⟩ : ∃ n : ℕ → ℕ, n = fun k => A.shape.getD k 0 := ⟨_, rfl⟩
  have hn : ∀ k, n k = A.shape.getD k 0 := fun k => by rw [hn']
  have rk0 : rk 0 = 1 := by rw [hrk]; rfl
  have rkN : rk (N + 1) = 1 := by rw [hrk]; exact aug_last (by omega)
  have rkl : ∀ mu < N, rk mu = (1 :: lr).getD mu 0 := fun mu hmu => by rw [hrk]; exact aug_left (by omega)
  have rkr : ∀ mu < N, rk (mu + 1) = lr.getD mu 0 := fun mu hmu => by rw [hrk]; exact aug_right (by omega)
  have hC0 : Cores Y.cores rk n := by rw [hrk, hn']; exact hC
  let Ps : List (ND ℝ) := (List.range N).map Q'
  have hPl : Ps.length = N := by simp [Ps]
  let L' : ND ℝ := ND.ofFn [rk N, n N, 1] fun i => pcL A.shape A.get (coreMats Ps) N (i.getD 0 0) [i.getD 1 0]
  let cs' : List (ND ℝ) := Ps ++ [L']
  have hl' : cs'.length = A.shape.length := by simp only [cs', List.length_append, hPl, List.length_singleton]; omega
  have hcs' : ∀ mu < N, cs'.getD mu (ND.zeros []) = Q' mu := by
    intro mu hmu
    rw [List.getD_append _ _ _ _ (by omega)]
    exact getD_map_range _ _ _ _ hmu
  have hcsN : cs'.getD N (ND.zeros []) = L' := by
    rw [List.getD_append_right _ _ _ _ (by omega), hPl, Nat.sub_self]; rfl
  have hpar : ∀ mu < N, Partner ε (Y.cores.getD mu (ND.zeros [])) (cs'.getD mu (ND.zeros [])) := by
    intro mu hmu; rw [hcs' mu hmu]; exact hQ' mu hmu
  have hC' : Cores cs' rk n := by
    intro mu hmu
    rw [hl'] at hmu
    by_cases hm : mu < N
    · rw [(hpar mu hm).1]; exact hC0 mu (by omega)
    · have : mu = N := by omega
      subst this
      rw [hcsN, rkN]; rfl
  have hmats : coreMats cs' N = coreMats Ps N := by
    rw [← coreMats_take cs' le_rfl, List.take_left' hPl]
  have hlast' : ∀ a < rk N, ∀ j < A.shape.getD N 0,
      (cs'.getD N (ND.zeros [])).get [a, j, 0] = pcL A.shape A.get (coreMats cs') N a [j] := by
    intro a ha j hj
    rw [hcsN, ND.ofFn_get (s := [rk N, n N, 1]) (i := [a, j, 0]) ⟨ha, by rw [hn]; exact hj, Nat.one_pos, trivial⟩]
    unfold pcL
    rw [hmats]; rfl
  have ho' : ∀ mu < N, (cs'.getD mu (ND.zeros [])).LeftOrthogonal := fun mu hmu => (hpar mu hmu).2.2
  -- the exact projection
  have hC'' : Cores cs' (fun k => (1 :: lr ++ [1]).getD k 0) (fun k => A.shape.getD k 0) := by rw [← hrk, ← hn']; exact hC'
  have hrkN : rk N = (1 :: lr ++ [1]).getD N 0 := by rw [hrk]
  obtain ⟨v1, v2, -⟩ := cores_tt hC'' (by omega) hl' hl
  obtain ⟨w1, w2, -⟩ := cores_tt hC (by omega) hlen hl
  have w1 : Y.Valid := w1
  have w2 : Y.shape = A.shape := w2
  have hproj := frame_projects (A := A) (Y := TT.mk cs') (lr := lr) (by omega) hl hl' hC'' (by rw [← hN]; exact ho')
    (by rw [← hN, ← hrkN]; exact hlast')
  have n0 : normSq (TT.mk cs').toNumpy = sumIdx A.shape fun i => ttEntry (TT.mk cs') i ^ 2 := by
    unfold normSq
    rw [TT.toNumpy_shape v1, v2]
    exact sumIdx_congr fun i _ => by rw [TT.toNumpy_get v1]
  obtain ⟨K, hK⟩ : ∃ K : ℝ, K = N * ε * (1 + ε) ^ N := ⟨_, rfl⟩
  have hK0 : 0 ≤ K := by rw [hK]; positivity
  have herr : distSq A (TT.mk cs').toNumpy ≤ ∑ mu ∈ range N, (√ (e mu) + τ mu) ^ 2 := by
    have e1 : distSq A (TT.mk cs').toNumpy = normSq A - normSq (TT.mk cs').toNumpy := by have := hproj.norm; linarith
    rw [e1, n0, frame_norm hC' rk0 (by rw [show A.shape.length = N + 1 by omega, rkN]) hn (by omega) hl' (by rw [← hN]; exact ho')
      (by rw [← hN]; exact hlast'), ← hN]
    refine frame_error hC' rk0 hn _ _ (by omega) (by omega) ho' fun mu hmu => ?_
    obtain ⟨z, hz⟩ := hdef cs' hl' hC'' hcs' mu hmu
    rw [hrk, hn']
    exact ⟨z, hz⟩
  have hfirst : frobD A (TT.mk cs').toNumpy ≤ √ (∑ mu ∈ range N, e mu) + √ (∑ mu ∈ range N, τ mu ^ 2) := by
    refine (Real.sqrt_le_sqrt herr).trans ((sqrt_sum_add_le (range N) _ _).trans (le_of_eq ?_))
    congr 2
    exact sum_congr rfl fun mu hmu => Real.sq_sqrt (he mu (by simpa using hmu))
  -- the computed train
  have hne : Y.cores ≠ [] := by intro e; rw [e] at hlen; simp at hlen; omega
  obtain ⟨L, hLdef⟩ : ∃ L, L = Y.cores.getD N (ND.zeros []) := ⟨_, rfl⟩
  have hY : Y.cores = Y.cores.take N ++ [L] := by
    rw [hLdef, getD_eq (by omega), List.take_append_getElem]
    rw [show N + 1 = Y.cores.length by omega, List.take_length]
  have hLs : L.shape = [rk N, n N, 1] := by rw [hLdef, hC0 N (by omega), rkN]
  have hfor : List.Forall₂ (Partner ε) (Y.cores.take N) Ps := by
    refine List.forall₂_iff_get.2 ⟨by rw [hPl, List.length_take]; omega, fun i h1 h2 => ?_⟩
    have hi : i < N := by rw [hPl] at h2; exact h2
    have := hQ' i hi
    rw [getD_eq (by omega)] at this
    simpa [Ps] using this
  have hchain : TTChain 1 (Y.cores.take N ++ [L]) 1 := by rw [← hY]; exact w1.2
  obtain ⟨-, z2⟩ := trains_near hε hfor hchain (L' := L') (by rw [hLs]; rfl)
  have hdrop : A.shape.drop N = [n N] := by
    rw [drop_cons (by omega), hn, show N + 1 = A.shape.length by omega, List.drop_length]
  obtain ⟨y1, y2⟩ := pcL_near (sh := A.shape) (f := A.get) hε hC0 hC' rk0 N (by omega) (by omega) (by omega) (fun k _ => hn k) hpar
  rw [hdrop] at y1 y2
  rw [← hLdef] at hL0s hL0
  have hLg : ∀ a < rk N, ∀ j < n N, L0.get [a, j, 0] = pcL A.shape A.get (coreMats Y.cores) N a [j] := by
    intro a ha j hj
    exact hlast a (by rw [← hrkN]; exact ha) j (by rw [← hn]; exact hj)
  have hL'g : ∀ a < rk N, ∀ j < n N, L'.get [a, j, 0] = pcL A.shape A.get (coreMats cs') N a [j] := by
    intro a ha j hj
    rw [← hcsN]
    exact hlast' a ha j (by rw [← hn]; exact hj)
  have three : ∀ G : ℕ → List ℕ → ℝ, ∀ M : ND ℝ, (∀ a < rk N, ∀ j < n N, M.get [a, j, 0] = G a [j]) →
      dL (rk N) [n N] (pcL A.shape A.get (coreMats Y.cores) N) G = frobD L0 M := by
    intro G M hM
    unfold dL distL frobD distSq
    rw [hL0s, hLs]
    congr 1
    show ∑ x ∈ range (rk N), ∑ j ∈ range (n N), _ = ∑ x ∈ range (rk N), ∑ j ∈ range (n N), ∑ z ∈ range 1, _
    refine sum_congr rfl fun a ha => sum_congr rfl fun j hj => ?_
    rw [sum_range_one]
    show (_ - _) ^ 2 = (L0.get [a, j, 0] - M.get [a, j, 0]) ^ 2
    rw [hM a (by simpa using ha) j (by simpa using hj), hLg a (by simpa using ha) j (by simpa using hj)]
  rw [three _ L' hL'g] at y2
  rw [three zL (ND.zeros [rk N, n N, 1]) (fun a _ j _ => by rw [ND.zeros_get]; rfl), frobD_zeros] at y1
  have hfA : √ (sumIdx A.shape fun i => A.get i ^ 2) = frobN A := rfl
  rw [hfA] at y1 y2
  have hYd : dL 1 A.shape (valL Y.cores) (valL cs') = frobD Y.toNumpy (TT.mk cs').toNumpy := by
    unfold dL distL frobD distSq
    rw [sum_range_one, TT.toNumpy_shape w1, w2]
    congr 1
    exact sumIdx_congr fun p _ => by rw [TT.toNumpy_get w1, TT.toNumpy_get v1]; rfl
  have hcsh : coreShape (Y.cores.take N ++ [L]) = A.shape := by rw [← hY]; exact w2
  rw [hcsh, ← hY, List.length_take, min_eq_left (by omega : N ≤ Y.cores.length)] at z2
  rw [hYd] at z2
  have tri := frobD_triangle (A := A) (B := (TT.mk cs').toNumpy) (C := Y.toNumpy) (by rw [TT.toNumpy_shape v1, v2])
  rw [frobD_symm (A := (TT.mk cs').toNumpy) (by rw [TT.toNumpy_shape v1, v2, TT.toNumpy_shape w1, w2])] at tri
  have f0 := frobN_nonneg A
  have g1 := mul_le_mul_of_nonneg_left y1 hK0
  have g2 : K * ((1 + ε) ^ N * frobN A) + K * frobN A ≤ 2 * N * ε * (1 + ε) ^ (2 * N) * frobN A := by
    have h1 : (1 + ε) ^ N ≤ (1 + ε) ^ (2 * N) := pow_le_pow_right₀ (by linarith) (by omega)
    have h2 : (1 + ε) ^ N * (1 + ε) ^ N = (1 + ε) ^ (2 * N) := by rw [← pow_add]; congr 1; omega
    have h3 := mul_le_mul_of_nonneg_left h1 (show 0 ≤ N * ε * frobN A by positivity)
    calc K * ((1 + ε) ^ N * frobN A) + K * frobN A
        = N * ε * frobN A * ((1 + ε) ^ N * (1 + ε) ^ N) + N * ε * frobN A * (1 + ε) ^ N := by rw [hK]; ring
      _ ≤ _ := by rw [h2]; linarith
  have t1 := frobD_triangle (A := L) (B := L0) (C := L') (by rw [hL0s])
  have t2 : frobN L ≤ frobN L0 + frobD L L0 := by
    have h1 := frobN_le (A := L0) (B := L) (by rw [hL0s])
    rw [frobD_symm (A := L0) (by rw [hL0s])] at h1
    exact h1
  rw [← hK] at z2 y2 ⊢
  have t3 := mul_le_mul_of_nonneg_left t2 hK0
  have t4 := mul_le_mul_of_nonneg_left hL0 hK0
  have t5 : (1 + K) * E = E + K * E := by ring
  have t6 : K * (frobN L0 + frobD L L0) = K * frobN L0 + K * frobD L L0 := by ring
  linarith

/-- The norm of an array contracted with cores. -/
theorem pcL_norm {sh : List ℕ} {f : List ℕ → ℝ} {cs : List (ND ℝ)} {rk n : ℕ → ℕ} (h : Cores cs rk n) (h0 : rk 0 = 1) :
    ∀ mu ≤ cs.length, mu ≤ sh.length → (∀ k < mu, n k = sh.getD k 0) →
      dL (rk mu) (sh.drop mu) (pcL sh f (coreMats cs) mu) zL
        ≤ (∏ nu ∈ range mu, frobN (cs.getD nu (ND.zeros []))) * √ (sumIdx sh fun i => f i ^ 2)
  | 0, _, _, _ => by
    have e : pcL sh f (coreMats cs) 0 = fun _ q => f q := by
      funext a q; simp [pcL, coreMats]
    rw [e, h0, List.drop_zero]
    unfold dL distL
    simp [zL]
  | mu + 1, h1, h3, hn => by
    have ih := pcL_norm (sh := sh) (f := f) h h0 mu (by omega) (by omega) (fun k hk => hn k (by omega))
    have s1 := h mu (by omega)
    rw [pcL_cont h h0 (by omega) (by omega) (hn mu (by omega))]
    rw [drop_cons (by omega), ← hn mu (by omega)] at ih
    generalize pcL sh f (coreMats cs) mu = F at *
    have a1 := cont_diff (C' := ND.zeros []) s1 (sh.drop (mu + 1)) F
    rw [frobD_zeros] at a1
    have e : cont (ND.zeros []) (rk mu) (n mu) F = zL := by
      funext t q
      simp [cont, zL, ND.zeros_get]
    rw [e] at a1
    rw [prod_range_succ]
    refine a1.trans ((mul_le_mul_of_nonneg_left ih (frobN_nonneg _)).trans (le_of_eq ?_))
    ring

/-- The norm of a sketched array contracted with cores. -/
theorem front_prod {sh : List ℕ} {cs : List (ND ℝ)} {rk n : ℕ → ℕ} (h : Cores cs rk n)
    (h0 : rk 0 = 1) {mu : ℕ} (h1 : mu ≤ cs.length) (h3 : mu < sh.length)
    (hn : ∀ k, n k = sh.getD k 0) (r : ℕ) (T : List ℕ → ℕ → ℝ) {P : ND ℝ}
    (hP : P.shape = [rk mu, n mu, r]) (hg : ∀ a < rk mu, ∀ j < n mu, ∀ b < r,
      P.get [a, j, b] = sumIdx (sh.take mu) fun p => coreMats cs mu p a * T (p ++ [j]) b) :
    frobN P ≤ (∏ nu ∈ range mu, frobN (cs.getD nu (ND.zeros [])))
      * √ (sumIdx (sh.take (mu + 1)) fun p => ∑ b ∈ range r, T p b ^ 2) := by
  let g : List ℕ → ℝ := fun i => T (i.take (mu + 1)) (i.getD (mu + 1) 0)
  have hlen : (sh.take (mu + 1)).length = mu + 1 := by rw [List.length_take]; omega
  have hgd : ∀ k < mu + 1, (sh.take (mu + 1) ++ [r]).getD k 0 = sh.getD k 0 := by
    intro k hk
    rw [List.getD_append _ _ _ _ (by omega), List.getD_eq_getElem?_getD, List.getD_eq_getElem?_getD,
      List.getElem?_take, if_pos hk]
  have key := pcL_norm (sh := sh.take (mu + 1) ++ [r]) (f := g) h h0 mu h1 (by simp; omega)
    (fun k hk => by rw [hgd k (by omega), hn])
  have ed : (sh.take (mu + 1) ++ [r]).drop mu = [n mu, r] := by
    rw [drop_cons (by simp; omega), hgd mu (by omega), ← hn mu]
    congr 1
    rw [List.drop_left' hlen]
  have et : (sh.take (mu + 1) ++ [r]).take mu = sh.take mu := by
    rw [List.take_append_of_le_length (by omega), List.take_take, min_eq_left (by omega)]
  have e1 : dL (rk mu) ((sh.take (mu + 1) ++ [r]).drop mu) (pcL (sh.take (mu + 1) ++ [r]) g (coreMats cs) mu) zL
      = frobN P := by
    rw [ed, ← dL_ent_zero hP]
    refine dL_congr (fun a ha p hp => ?_) fun _ _ _ _ => rfl
    match p, hp with
    | [j, b], hp =>
      show _ = P.get [a, j, b]
      rw [hg a ha j hp.1 b hp.2.1]
      unfold pcL
      rw [et]
      refine sumIdx_congr fun p hp' => ?_
      have hpl : p.length = mu := by rw [hp'.length, List.length_take]; omega
      congr 1
      show T ((p ++ [j, b]).take (mu + 1)) ((p ++ [j, b]).getD (mu + 1) 0) = _
      rw [show p ++ [j, b] = (p ++ [j]) ++ [b] by simp, List.take_left' (by simp [hpl]),
        List.getD_append_right _ _ _ _ (by simp [hpl])]
      simp [hpl]
  have e2 : sumIdx (sh.take (mu + 1) ++ [r]) (fun i => g i ^ 2)
      = sumIdx (sh.take (mu + 1)) fun p => ∑ b ∈ range r, T p b ^ 2 := by
    rw [sumIdx_append]
    refine sumIdx_congr fun p hp' => ?_
    have hpl : p.length = mu + 1 := by rw [hp'.length, hlen]
    show ∑ b ∈ range r, _ = _
    refine sum_congr rfl fun b _ => ?_
    show T ((p ++ [b]).take (mu + 1)) ((p ++ [b]).getD (mu + 1) 0) ^ 2 = _
    rw [List.take_left' hpl, List.getD_append_right _ _ _ _ (by simp [hpl])]
    simp [hpl]
  rw [e1, e2] at key
  exact key

/-- The defect of one bond, when the factorised matrix is computed with an error `E`. -/
theorem defect_fl {sh : List ℕ} {f : List ℕ → ℝ} {R : Mats ℝ} {cs cs' : List (ND ℝ)} {rk n : ℕ → ℕ} {ε E : ℝ}
    (hε : 0 ≤ ε) (h : Cores cs rk n) (h' : Cores cs' rk n)
    (h0 : rk 0 = 1) {mu : ℕ} (h1 : mu ≤ cs.length) (h2 : mu < cs'.length) (h3 : mu < sh.length)
    (hn : ∀ k, n k = sh.getD k 0)
    (hp : ∀ k < mu, Partner ε (cs.getD k (ND.zeros [])) (cs'.getD k (ND.zeros [])))
    {P0 P P' : ND ℝ} {y : ℕ → ℕ → ℝ} (hP : P.shape = [rk mu, n mu, rk (mu + 1)]) (hP0 : P0.shape = P.shape)
    (hg : ∀ a < rk mu, ∀ j < n mu, ∀ b < rk (mu + 1), P.get [a, j, b] = psiSpec sh f (coreMats cs) R mu a j b)
    (hE : frobD P0 P ≤ E) (hPP : frobD P0 P' ≤ ε * frobN P0)
    (hy : ∀ a < rk mu, ∀ j < n mu, ∀ b < rk (mu + 1),
      ∑ t ∈ range (rk (mu + 1)), (cs'.getD mu (ND.zeros [])).get [a, j, t] * y t b = P'.get [a, j, b])
    (U : ℕ → List ℕ → ℝ) :
    ∃ z : ℕ → List ℕ → ℝ, (∑ a ∈ range (rk mu), ∑ j ∈ range (n mu), sumIdx (sh.drop (mu + 1)) fun q =>
        (pcL sh f (coreMats cs') mu a (j :: q)
          - ∑ t ∈ range (rk (mu + 1)), (cs'.getD mu (ND.zeros [])).get [a, j, t] * z t q) ^ 2)
      ≤ (√ (sumIdx sh fun i => (f i - projU sh f R (mu + 1) (rk (mu + 1)) U i) ^ 2)
          + ((mu + 1) * ε * (1 + ε) ^ mu
            * √ (sumIdx (sh.take (mu + 1)) fun p => ∑ b ∈ range (rk (mu + 1)), pcR sh f R (mu + 1) p b ^ 2)
            + (1 + ε) * E) * dL (rk (mu + 1)) (sh.drop (mu + 1)) U zL) ^ 2 := by
  have hd : n mu :: sh.drop (mu + 1) = sh.drop mu := by rw [drop_cons h3, hn]
  have t4 := mulU_diff (P' := P') hP (sh.drop (mu + 1)) U
  rw [hd] at t4
  have t5 := psi_norm (R := R) hε h h' h0 h1 (by omega) h3 hn hp (rk (mu + 1)) hP hg
  have hu := dL_nonneg (rk (mu + 1)) (sh.drop (mu + 1)) U zL
  have t6 := frobD_triangle (A := P) (B := P0) (C := P') hP0
  rw [frobD_symm (A := P) hP0] at t6
  have t7 := frobN_le (A := P) (B := P0) hP0
  rw [frobD_symm (A := P) hP0] at t7
  generalize hS : √ (sumIdx (sh.take (mu + 1)) fun p => ∑ b ∈ range (rk (mu + 1)), pcR sh f R (mu + 1) p b ^ 2) = S at t5 ⊢
  have t8 : frobD P P' ≤ ε * ((1 + ε) ^ mu * S) + (1 + ε) * E := by
    have h1 := mul_le_mul_of_nonneg_left (t7.trans (add_le_add t5 hE)) hε
    have h2 : ε * ((1 + ε) ^ mu * S + E) = ε * ((1 + ε) ^ mu * S) + ε * E := by ring
    linarith
  have d2 := mul_le_mul_of_nonneg_right t8 hu
  obtain ⟨z, hz⟩ := defect_gen hε h h' h0 h1 h2 h3 hn hp hg hy U U (t4.trans d2)
  refine ⟨z, hz.trans (le_of_eq ?_)⟩
  rw [hS]
  ring

/-- The whole run: cores found with errors `E` in the factorised matrices and in the last core. -/
theorem hmt_approx_fl {env : Env ℝ} {ε : ℝ} (hε : 0 ≤ ε) (hQ : QRApproxContract env ε) {A : ND ℝ} {R : Mats ℝ}
    {lr : List ℕ} {Y : TT ℝ} (E : ℕ → ℝ) (hE0 : ∀ mu, 0 ≤ E mu) (hlen : Y.cores.length = A.shape.length)
    (hC : Cores Y.cores (fun k => (1 :: lr ++ [1]).getD k 0) fun k => A.shape.getD k 0)
    (hstep : ∀ mu < A.shape.length - 1, ∃ P, P.shape = (psiOf A.shape A.get R lr lr Y.cores mu).shape ∧
      frobD P (psiOf A.shape A.get R lr lr Y.cores mu) ≤ E mu ∧ orthStep env P none = .ok (Y.cores.getD mu (ND.zeros [])))
    (hlast : frobD (Y.cores.getD (A.shape.length - 1) (ND.zeros []))
      (psiOf A.shape A.get R lr lr Y.cores (A.shape.length - 1)) ≤ E (A.shape.length - 1))
    (hd : 2 ≤ A.shape.length) (hl : lr.length = A.shape.length - 1) (hR : ∀ b, R A.shape.length [] b = 1)
    (p1 : ∀ n ∈ A.shape, 0 < n) (p2 : ∀ r ∈ lr, 0 < r) (B : ℕ → ℕ → List ℕ → ℝ) :
    (∀ mu < A.shape.length - 1, ∃ C', Partner ε (Y.cores.getD mu (ND.zeros [])) C') ∧
    frobD A Y.toNumpy ≤ √ (∑ mu ∈ range (A.shape.length - 1), rangeErrSq A R (mu + 1) (lr.getD mu 0) (B mu))
      + √ (∑ mu ∈ range (A.shape.length - 1),
          (((A.shape.length - 1 : ℕ) * ε * (1 + ε) ^ (A.shape.length - 1) * sketchedNorm A R (mu + 1) (lr.getD mu 0)
            + (1 + ε) * E mu) * coeffNorm A.shape (mu + 1) (lr.getD mu 0) (B mu)) ^ 2)
      + 2 * (A.shape.length - 1 : ℕ) * ε * (1 + ε) ^ (2 * (A.shape.length - 1)) * frobN A
      + (1 + (A.shape.length - 1 : ℕ) * ε * (1 + ε) ^ (A.shape.length - 1)) * E (A.shape.length - 1) := by
  obtain ⟨N, hN⟩ : ∃ N, N = A.shape.length - 1 := ⟨_, rfl⟩
  rw [← hN] at hstep hlast ⊢
  -- partners
  have key : ∀ mu, ∃ (Q' P' P : ND ℝ) (y : ℕ → ℕ → ℝ), mu < N → Partner ε (Y.cores.getD mu (ND.zeros [])) Q' ∧
      P.shape = (psiOf A.shape A.get R lr lr Y.cores mu).shape ∧
      frobD P (psiOf A.shape A.get R lr lr Y.cores mu) ≤ E mu ∧
      frobD P P' ≤ ε * frobN P ∧
      ∀ i < (1 :: lr).getD mu 0, ∀ j < A.shape.getD mu 0, ∀ b < lr.getD mu 0,
        ∑ t ∈ range (lr.getD mu 0), Q'.get [i, j, t] * y t b = P'.get [i, j, b] := by
    intro mu
    by_cases hmu : mu < N
    · have hP := psiOf_shape A.shape A.get R lr lr Y.cores mu
      rw [List.getD_append _ _ _ _ (by omega)] at hP
      obtain ⟨P, s1, s2, s3⟩ := hstep mu hmu
      obtain ⟨Q', P', y, q1, q2, q3⟩ := orthStep_approx hQ (s1.trans hP) (positive_fit p1 p2 hl mu (by omega)) s3
      exact ⟨Q', P', P, y, fun _ => ⟨q1, s1, s2, q2, q3⟩⟩
    · exact ⟨ND.zeros [], ND.zeros [], ND.zeros [], fun _ _ => 0, fun h => absurd h hmu⟩
  choose Q' P' P y hq using key
  refine ⟨fun mu hmu => ⟨Q' mu, (hq mu hmu).1⟩, ?_⟩
  have hrk : ∀ mu < N, (1 :: lr ++ [1]).getD mu 0 = (1 :: lr).getD mu 0 := fun mu hmu => aug_left (by omega)
  have hrk' : ∀ mu < N, (1 :: lr ++ [1]).getD (mu + 1) 0 = lr.getD mu 0 := fun mu hmu => aug_right (by omega)
  have hrkN : (1 :: lr ++ [1]).getD N 0 = (1 :: lr).getD N 0 := by
    rw [List.getD_append _ _ _ _ (by simp; omega)]
  have hL0s : (psiOf A.shape A.get R lr lr Y.cores N).shape = (Y.cores.getD N (ND.zeros [])).shape := by
    rw [hC N (by omega), psiOf_shape, ← hrkN]
    have e1 : (1 :: lr ++ [1]).getD (N + 1) 0 = 1 := aug_last (by omega)
    have e2 : (lr ++ [1]).getD N 0 = 1 := by
      rw [List.getD_append_right _ _ _ _ (by omega), show N - lr.length = 0 by omega]; rfl
    show _ = [(1 :: lr ++ [1]).getD N 0, A.shape.getD N 0, (1 :: lr ++ [1]).getD (N + 1) 0]
    rw [e1, e2]
  have key := frame_run_fl hε hd hl hlen hC (Q' := Q') (E := E N) (L0 := psiOf A.shape A.get R lr lr Y.cores N)
    (by rw [← hN]; exact hL0s)
    (by
      rw [← hN]
      intro a ha j hj
      unfold psiOf
      rw [ND.ofFn_get]
      · show psiSpec A.shape A.get (coreMats Y.cores) R N a j 0 = _
        rw [hN]
        exact psiSpec_last (by omega) hR a j 0
      · refine ⟨by rw [← hrkN]; exact ha, hj, ?_, trivial⟩
        rw [List.getD_append_right _ _ _ _ (by omega), show N - lr.length = 0 by omega]
        exact Nat.one_pos)
    (by rw [← hN]; exact hlast)
    (by rw [← hN]; exact fun mu hmu => (hq mu hmu).1)
    (fun mu => rangeErrSq A R (mu + 1) (lr.getD mu 0) (B mu))
    (fun mu => (N * ε * (1 + ε) ^ N * sketchedNorm A R (mu + 1) (lr.getD mu 0) + (1 + ε) * E mu)
      * coeffNorm A.shape (mu + 1) (lr.getD mu 0) (B mu))
    (fun mu _ => by unfold rangeErrSq; exact sumIdx_nonneg fun _ => sq_nonneg _) (fun cs' hl' hC' hcs' mu hmu => by
      rw [← hN] at hmu hcs'
      have hsh := psiOf_shape A.shape A.get R lr lr Y.cores mu
      rw [List.getD_append _ _ _ _ (by omega)] at hsh
      obtain ⟨q1, q2, q3, q4, q5⟩ := hq mu hmu
      obtain ⟨z, hz⟩ := defect_fl (R := R) (f := A.get) hε hC hC' rfl (mu := mu) (by omega) (by omega)
        (by omega : mu < A.shape.length) (fun _ => rfl) (fun k hk => by rw [hcs' k (by omega)]; exact (hq k (by omega)).1)
        (P := psiOf A.shape A.get R lr lr Y.cores mu) (P0 := P mu) (P' := P' mu) (y := y mu)
        (by rw [hrk mu hmu, hrk' mu hmu]; exact hsh) q2
        (fun a ha j hj b hb => psiOf_get (by omega) (by rw [← hrk mu hmu]; exact ha) hj (by rw [← hrk' mu hmu]; exact hb))
        q3 q4 (fun a ha j hj b hb => by
          rw [hcs' mu hmu, hrk' mu hmu]
          exact q5 a (by rw [← hrk mu hmu]; exact ha) j hj b (by rw [← hrk' mu hmu]; exact hb)) (B mu)
      have hE := hE0 mu
      refine ⟨z, hz.trans (pow_le_pow_left₀ ?_ ?_ 2)⟩
      · have := dL_nonneg ((1 :: lr ++ [1]).getD (mu + 1) 0) (A.shape.drop (mu + 1)) (B mu) zL
        positivity
      · rw [hrk' mu hmu]
        have e1 : √ (sumIdx (A.shape.take (mu + 1)) fun p => ∑ b ∈ range (lr.getD mu 0), pcR A.shape A.get R (mu + 1) p b ^ 2)
            = sketchedNorm A R (mu + 1) (lr.getD mu 0) := rfl
        have e2 : dL (lr.getD mu 0) (A.shape.drop (mu + 1)) (B mu) zL
            = coeffNorm A.shape (mu + 1) (lr.getD mu 0) (B mu) := by
          unfold dL distL coeffNorm zL
          simp only [sub_zero]
        have e3 : (sumIdx A.shape fun i => (A.get i - projU A.shape A.get R (mu + 1) (lr.getD mu 0) (B mu) i) ^ 2)
            = rangeErrSq A R (mu + 1) (lr.getD mu 0) (B mu) := rfl
        rw [e1, e2, e3]
        have hmuN : ((mu : ℝ) + 1) ≤ N := by exact_mod_cast (show mu + 1 ≤ N by omega)
        have hpw : (1 + ε) ^ mu ≤ (1 + ε) ^ N := pow_le_pow_right₀ (by linarith) (by omega)
        have hK : ((mu : ℝ) + 1) * ε * (1 + ε) ^ mu ≤ N * ε * (1 + ε) ^ N :=
          mul_le_mul (mul_le_mul_of_nonneg_right hmuN hε) hpw (by positivity) (by positivity)
        have hS : 0 ≤ sketchedNorm A R (mu + 1) (lr.getD mu 0) := Real.sqrt_nonneg _
        have hc : 0 ≤ coeffNorm A.shape (mu + 1) (lr.getD mu 0) (B mu) := Real.sqrt_nonneg _
        have := mul_le_mul_of_nonneg_right (mul_le_mul_of_nonneg_right hK hS) hc
        rw [add_mul, add_mul]
        linarith)
  rw [← hN] at key
  exact key

/-- one Psi core of the floating point sketch -/
theorem flPsiAt_near {u : ℝ} (hu : 0 ≤ u) {env : Env ℝ} {l r : DRM ℝ} {X : Tensor ℝ} (hl : l.AcceptsT X)
    (hr : r.AcceptsT X) (hlt : l.transpose = false) (hrt : r.transpose = true) {lc rc : List (List (ND ℝ))}
    (hlc : l.FlContr u env X lc) (hrc : r.FlContr u env X rc) {mu : ℕ} (hmu : mu < X.shape.length) {P : ND ℝ}
    (hP : FlPsiAt u X l.rank r.rank.reverse lc rc mu P) :
    NN u (X.psiTotal l r mu) P ((contSum env l r X.shape X.summands).psi.getD mu (ND.zeros []))
        ((absSum env l r X.shape X.summands).psi.getD mu (ND.zeros [])) := by
  have hsh : ∀ t ∈ X.summands, t.shape = X.shape := fun t ht => by
    rw [(hl.each t ht).shape, ← hl.shape]
  unfold FlPsiAt at hP
  have e1 : ((contSum env l r X.shape X.summands).psi.getD mu (ND.zeros []))
    = ND.ofFn (psiShape X.shape l.rank r.rank.reverse mu)
        fun i => (X.summands.map fun t => (pSk env l r t mu).get i).sum := by
    unfold contSum contOf
    rw [getD_map_range _ _ _ _ hmu]
  have e2 : ((absSum env l r X.shape X.summands).psi.getD mu (ND.zeros []))
    = ND.ofFn (psiShape X.shape l.rank r.rank.reverse mu)
        fun i => (X.summands.map fun t => (aP env l r t mu).get i).sum := by
    unfold absSum contOf
    rw [getD_map_range _ _ _ _ hmu]
  rw [e1, e2]
  have near : ∀ t ∈ X.summands, ∀ lt rt P, l.FlSketch u env t lt → r.FlSketch u env t rt →
      FlPsiLeaf u t mu (psiShape X.shape l.rank r.rank.reverse mu) (loAt lt mu) (roAt rt X.shape.length mu) P →
      NN u (t.psiTotal l r mu) P (pSk env l r t mu) (aP env l r t mu) ∧
      (pSk env l r t mu).shape = psiShape X.shape l.rank r.rank.reverse mu := by
    intro t ht lt rt P k1 k2 k3
    have hs := hsh t ht
    refine ⟨leaf_psi_near hu (hl.each t ht) (hr.each t ht) hlt hrt k1 k2 (by rw [hs]; exact hmu)
      (by rw [hs]; exact k3), ?_⟩
    have := (parts_sk (env := env) (hl.each t ht) (hr.each t ht) hlt hrt).2.2 mu (by rw [hs]; exact hmu)
    rw [hs] at this
    exact this
  have el : ∀ n, lc.length = n → (if 0 < mu then (pick lc (mu - 1)).map some
      else List.replicate n none) = lc.map fun lt => loAt lt mu := by
    intro n hn
    unfold loAt
    split_ifs
    · unfold pick; simp [Function.comp_def]
    · rw [← hn]; simp [List.map_const']
  have er : ∀ n, rc.length = n → (if mu < X.shape.length - 1 then (pick rc mu).map some
      else List.replicate n none) = rc.map fun lt => roAt lt X.shape.length mu := by
    intro n hn
    unfold roAt
    split_ifs
    · unfold pick; simp [Function.comp_def]
    · rw [← hn]; simp [List.map_const']
  have hP : FlPsiT u X mu (psiShape X.shape l.rank r.rank.reverse mu)
      (if 0 < mu then (pick lc (mu - 1)).map some else List.replicate X.parts none)
      (if mu < X.shape.length - 1 then (pick rc mu).map some else List.replicate X.parts none) P := hP
  rw [el X.parts hlc.length_eq.symm, er X.parts hrc.length_eq.symm] at hP
  cases X with
  | leaf X =>
    obtain ⟨lt, _, k1, kn, rfl⟩ := List.forall₂_cons_left_iff.1 hlc
    obtain ⟨rt, _, k2, kn', rfl⟩ := List.forall₂_cons_left_iff.1 hrc
    obtain ⟨q1, q2⟩ := near X (by simp [Tensor.summands]) lt rt P k1 k2 hP
    exact q1.one_sum q2
  | sum X =>
    have hfold : flFold (fun psi (t : Leaf ℝ × Option (ND ℝ) × Option (ND ℝ)) psi' =>
      ∃ P, FlPsiLeaf u t.1 mu (psiShape X.shape l.rank r.rank.reverse mu) t.2.1 t.2.2 P ∧
        psi.shape = P.shape ∧ FlAdd u psi P psi')
      (ND.zeros (psiShape X.shape l.rank r.rank.reverse mu))
      (X.tensors.zip ((lc.map fun lt => loAt lt mu).zip (rc.map fun lt => roAt lt X.shape.length mu))) P := hP
    have := fold_near hu _ (N := (X.tensors.map fun t => t.psiTotal l r mu).foldr max 0) (k := 0)
      (g := fun t => pSk env l r t.1 mu) (h := fun t => aP env l r t.1 mu) ?_
      (NDNear.zeros _ (one_le_pow_u hu _)) hfold
    · obtain ⟨z1, z2⟩ := zip_foldl hlc hrc (fun lt => loAt lt mu) (fun lt => roAt lt X.shape.length mu)
        (fun (s : ND ℝ) t => s.add (pSk env l r t mu)) (ND.zeros (psiShape X.shape l.rank r.rank.reverse mu))
      obtain ⟨z3, _⟩ := zip_foldl hlc hrc (fun lt => loAt lt mu) (fun lt => roAt lt X.shape.length mu)
        (fun (s : ND ℝ) t => s.add (aP env l r t mu)) (ND.zeros (psiShape X.shape l.rank r.rank.reverse mu))
      simp only [Tensor.summands] at z1 z2 z3
      rw [z1, z2, z3] at this
      rw [foldl_add_eq _ _ _ ?_, foldl_add_eq _ _ _ ?_] at this
      · exact this
      · intro t ht
        have hs := hsh t ht
        have := (abs_shapes env (hl.each t ht) (hr.each t ht) hlt hrt).2 mu (by rw [hs]; exact hmu)
        rw [hs] at this
        exact this
      · intro t ht
        have hs := hsh t ht
        have := (parts_sk (env := env) (hl.each t ht) (hr.each t ht) hlt hrt).2.2 mu (by rw [hs]; exact hmu)
        rw [hs] at this
        exact this
    · intro x hx P hP
      obtain ⟨b, c, hm, k1, k2, e⟩ := zip_mem hlc hrc _ _ hx
      rw [e] at hP
      refine ((near x.1 hm b c P k1 k2 hP).1).mono hu ?_
      exact le_foldr_max (List.mem_map_of_mem (f := fun t => Leaf.psiTotal l r t mu) hm)

/-! ### the contraction with the cores found so far -/

theorem flScan_extend {step : ℕ → ND ℝ → ND ℝ → ND ℝ → Prop} (hs : ∀ mu P C, ∃ P', step mu P C P') (pad : List (ND ℝ)) :
    ∀ (Cs : List (ND ℝ)) (mu : ℕ) (P : ND ℝ) (out : List (ND ℝ)), flScan step mu P Cs out →
      ∃ out', flScan step mu P (Cs ++ pad) out' ∧ out = out'.take (Cs.length + 1)
  | [], mu, P, out, h => by
    have h : out = [P] := h
    have key : ∀ (Cs : List (ND ℝ)) (mu : ℕ) (P : ND ℝ), ∃ rest, flScan step mu P Cs (P :: rest) := by
      intro Cs
      induction Cs with
      | nil => intro mu P; exact ⟨[], rfl⟩
      | cons C Cs ih =>
        intro mu P
        obtain ⟨P', h1⟩ := hs mu P C
        obtain ⟨rest, h2⟩ := ih (mu + 1) P'
        exact ⟨_, P', _, h1, h2, rfl⟩
    obtain ⟨rest, h2⟩ := key pad mu P
    exact ⟨_, h2, by rw [h]; simp⟩
  | C :: Cs, mu, P, out, h => by
    obtain ⟨P', rest, h1, h2, rfl⟩ := h
    obtain ⟨out', h3, h4⟩ := flScan_extend hs pad Cs (mu + 1) P' rest h2
    exact ⟨P :: out', ⟨P', out', h1, h3, rfl⟩, by rw [List.length_cons, List.take_succ_cons, h4]⟩

theorem flRun_extend {first : ND ℝ → ND ℝ → Prop} {step : ℕ → ND ℝ → ND ℝ → ND ℝ → Prop}
    (hs : ∀ mu P C, ∃ P', step mu P C P') {cores out : List (ND ℝ)} (pad : List (ND ℝ)) (hne : cores ≠ [])
    (h : flRun first step cores out) : ∃ out', flRun first step (cores ++ pad) out' ∧ out = out'.take cores.length := by
  match cores, hne with
  | C :: Cs, _ =>
    obtain ⟨P, h1, h2⟩ := h
    obtain ⟨out', h3, h4⟩ := flScan_extend hs pad Cs 1 P out h2
    exact ⟨out', ⟨P, h1, h3⟩, h4⟩

theorem orth_fl_extend {u : ℝ} (hu : 0 ≤ u) {env : Env ℝ} {lr sh : List ℕ} {cores : List (ND ℝ)} (pad : List (ND ℝ))
    (hne : cores ≠ []) {t : Leaf ℝ} {out : List (ND ℝ)} (h : (orthDRM lr sh cores).FlSketch u env t out) :
    ∃ out', (orthDRM lr sh (cores ++ pad)).FlSketch u env t out' ∧ out = out'.take cores.length := by
  obtain ⟨h1, h2, h3⟩ := h
  have hs2 : (orthDRM lr sh (cores ++ pad)).data.supports t = true := by cases t <;> rfl
  have h3 : (orthDRM lr sh cores).FlSketchOwn u env t out := h3
  suffices hh : ∃ out', (orthDRM lr sh (cores ++ pad)).FlSketchOwn u env t out' ∧ out = out'.take cores.length by
    obtain ⟨out', a, b⟩ := hh
    exact ⟨out', ⟨hs2, h2, a⟩, b⟩
  have ex := fun ops (hops : ops ≠ []) o => FlEinsum.exact hu ops hops o
  have hh : (cores ++ pad).headD (ND.zeros []) = cores.headD (ND.zeros []) := by
    match cores, hne with
    | C :: Cs, _ => rfl
  cases t with
  | sparse X =>
    obtain ⟨l, k1, k2⟩ := h3
    obtain ⟨l', k3, k4⟩ := flRun_extend (fun mu P C => ⟨_, FlEinsum.exact hu _ (by simp) _⟩) pad hne k1
    refine ⟨_, ⟨l', k3, rfl⟩, ?_⟩
    rw [k2, k4]
    show List.map ND.matT ((orthDRM lr sh cores).sliceCols (l'.take _)) = _
    rw [sliceCols_take, List.map_take]
    rfl
  | tt X =>
    obtain ⟨l, k1, k2⟩ := h3
    obtain ⟨l', k3, k4⟩ := flRun_extend (fun mu P C => ⟨_, FlEinsum.exact hu _ (by simp) _⟩) pad hne k1
    refine ⟨_, ⟨l', k3, rfl⟩, ?_⟩
    rw [k2, k4]
    exact sliceCols_take _ _ _
  | cp X =>
    obtain ⟨l, k1, k2⟩ := h3
    obtain ⟨l', k3, k4⟩ := flRun_extend (fun mu P C => ⟨_, FlEinsum.exact hu _ (by simp) _⟩) pad hne k1
    refine ⟨_, ⟨l', k3, rfl⟩, ?_⟩
    rw [k2, k4]
    exact sliceCols_take _ _ _
  | dense X =>
    obtain ⟨l, k1, k2⟩ := h3
    obtain ⟨l', k3, k4⟩ := flRun_extend (fun mu P C => ⟨_, _, FlEinsum.exact hu _ (by simp) _, rfl⟩) pad hne k1
    refine ⟨_, ⟨l', k3, rfl⟩, ?_⟩
    rw [k2, k4, List.map_take]
  | tucker X =>
    obtain ⟨k0, k1⟩ := h3
    obtain ⟨l', k3, k4⟩ := flRun_extend
      (fun mu P C => ⟨_, _, _, FlEinsum.exact hu _ (by simp) _, FlEinsum.exact hu _ (by simp) _, rfl⟩) pad hne k1
    refine ⟨l', ⟨?_, k3⟩, k4⟩
    unfold tuckerReshapeOk at k0 ⊢
    rw [hh]
    exact k0

theorem orth_flContr_extend {u : ℝ} (hu : 0 ≤ u) {env : Env ℝ} {lr sh : List ℕ} {cores : List (ND ℝ)} (pad : List (ND ℝ))
    (hne : cores ≠ []) {X : Tensor ℝ} {lc : List (List (ND ℝ))} (h : (orthDRM lr sh cores).FlContr u env X lc) :
    ∃ lc', (orthDRM lr sh (cores ++ pad)).FlContr u env X lc' ∧ lc = lc'.map (List.take cores.length) := by
  unfold DRM.FlContr at h ⊢
  generalize X.summands = ts at h ⊢
  induction h with
  | nil => exact ⟨[], .nil, rfl⟩
  | cons h1 _ ih =>
    obtain ⟨o, k1, k2⟩ := orth_fl_extend hu pad hne h1
    obtain ⟨os, k3, k4⟩ := ih
    exact ⟨o :: os, .cons k1 k3, by rw [k2, k4]; rfl⟩

/-! ### the computed Psi cores -/

theorem coreMats_abs (env : Env ℝ) {lr sh : List ℕ} {cores : List (ND ℝ)} {k : ℕ} (hk : k ≤ cores.length)
    (hn : cores.length ≤ sh.length - 1) :
    (orthDRM lr sh (padCores lr sh cores)).absLeftMats env k = coreMats (cores.map ND.abs) k := by
  funext p a
  unfold DRM.absLeftMats coreMats
  split_ifs with h0
  · rfl
  · show ttVal (((padCores lr sh cores).take (k - 1 + 1)).map ND.abs) p 0
      ((List.replicate (sh.length - 1) 0).getD (k - 1) 0 + a) = _
    rw [replicate_getD _ _ _ (by omega), Nat.sub_add_cancel (by omega), zero_add]
    unfold padCores
    rw [List.take_append_of_le_length hk, List.map_take]

theorem flErr_nonneg {u : ℝ} (hu : 0 ≤ u) (n : ℕ) : 0 ≤ flErr u n := by
  have := one_le_pow_u hu n
  unfold flErr; linarith

theorem psiSize_nonneg (A : ND ℝ) (R : Mats ℝ) (cores : List (ND ℝ)) (mu r : ℕ) : 0 ≤ psiSize A R cores mu r :=
  mul_nonneg (prod_nonneg fun _ _ => frobN_nonneg _) (Real.sqrt_nonneg _)

theorem psiSize_take (A : ND ℝ) (R : Mats ℝ) (cores : List (ND ℝ)) (mu r : ℕ) :
    psiSize A R (cores.take mu) mu r = psiSize A R cores mu r := by
  unfold psiSize
  congr 1
  refine prod_congr rfl fun nu hnu => ?_
  rw [List.getD_eq_getElem?_getD, List.getD_eq_getElem?_getD, List.getElem?_take, if_pos (by simpa using hnu)]

/-- The error of a computed Psi core. -/
theorem flPsi_err {u : ℝ} (hu : 0 ≤ u) {env : Env ℝ} {X : Tensor ℝ} {r : DRM ℝ} {R R' : Mats ℝ} (hX : X.Valid)
    (hd : 2 ≤ X.shape.length) (hdist : X.Distinct) (hr : r.AcceptsT X) (hrt : r.transpose = true) (hS : StreamsWith env X r R)
    (hR' : ∀ t ∈ X.summands, ∀ mu < X.shape.length - 1, IsContrR t.abs (mu + 1) (r.rank.reverse.getD mu 0)
      (R' (mu + 1)) ((r.absD env t).getD mu (ND.zeros []))) (hR1 : R' X.shape.length = fun _ _ => 1)
    {lr : List ℕ} (hl : lr.length = X.shape.length - 1) {cores : List (ND ℝ)} (hc : OrthCores lr X.shape cores)
    {mu : ℕ} (hn : cores.length = mu) (hmu : mu < X.shape.length) {lc rc : List (List (ND ℝ))}
    (hlc : 0 < mu → (orthDRM lr X.shape cores).FlContr u env X lc) (hrc : r.FlContr u env X rc) {P : ND ℝ}
    (hP : FlPsiAt u X lr r.rank.reverse lc rc mu P) :
    P.shape = (psiOf X.shape X.toNumpy.get R lr r.rank.reverse cores mu).shape ∧
    frobD P (psiOf X.shape X.toNumpy.get R lr r.rank.reverse cores mu)
      ≤ flErr u (X.psiTotal (orthDRM lr X.shape []) r mu)
        * psiSize X.abs.toNumpy R' cores mu ((r.rank.reverse ++ [1]).getD mu 0) := by
  obtain ⟨w1, w2⟩ := orth_wf hd hl hc (by omega)
  have hacc := acceptsT_of w1 w2 hX rfl (fun t _ => by cases t <;> rfl)
  obtain ⟨l1, r1⟩ := hacc.ranks hr
  have hs := hS _ hacc rfl
  have hlc' : ∃ lc', (orthDRM lr X.shape (padCores lr X.shape cores)).FlContr u env X lc' ∧
      FlPsiAt u X lr r.rank.reverse lc' rc mu P := by
    rcases Nat.eq_zero_or_pos mu with h0 | h0
    · obtain ⟨lc0, -, p1, -⟩ := streaming_parts hs
      subst h0
      exact ⟨lc0, contr_exact hu p1, hP⟩
    · have hne : cores ≠ [] := by intro h; rw [h] at hn; simp at hn; omega
      obtain ⟨lc', k1, k2⟩ := orth_flContr_extend hu
        (((List.range (X.shape.length - 1)).drop cores.length).map fun k =>
          ND.zeros [(1 :: lr).getD k 0, X.shape.getD k 0, lr.getD k 0]) hne (hlc h0)
      refine ⟨lc', k1, ?_⟩
      have e : pick lc (mu - 1) = pick lc' (mu - 1) := by rw [k2, pick_take _ _ _ (by omega)]
      unfold FlPsiAt at hP ⊢
      rw [e] at hP
      exact hP
  obtain ⟨lc', k1, k2⟩ := hlc'
  rw [← orth_rank hl (padCores lr X.shape cores)] at k2
  have near := flPsiAt_near hu hacc hr rfl hrt k1 hrc hmu k2
  rw [streaming_sum hacc hr rfl hrt] at hs
  injection hs with hs
  have ha := absSum_spec (env := env) hX hacc hr rfl hdist R' hR' hR1
  rw [hs, ha, orth_rank hl] at near
  have e1 : (sketchOf X.shape X.toNumpy.get ((orthDRM lr X.shape (padCores lr X.shape cores)).leftMats env) R lr
      r.rank.reverse).psi.getD mu (ND.zeros []) = psiOf X.shape X.toNumpy.get R lr r.rank.reverse cores mu := by
    show ((List.range X.shape.length).map _).getD mu _ = _
    rw [getD_map_range _ _ _ _ hmu]
    unfold psiOf psiSpec
    rw [orth_leftMats env (by omega) (by omega)]
  have e2 : (sketchOf X.shape X.abs.toNumpy.get ((orthDRM lr X.shape (padCores lr X.shape cores)).absLeftMats env) R' lr
      r.rank.reverse).psi.getD mu (ND.zeros [])
      = psiOf X.shape X.abs.toNumpy.get R' lr r.rank.reverse (cores.map ND.abs) mu := by
    show ((List.range X.shape.length).map _).getD mu _ = _
    rw [getD_map_range _ _ _ _ hmu]
    unfold psiOf psiSpec
    rw [coreMats_abs env (by omega) (by omega)]
  rw [e1, e2] at near
  have en : X.psiTotal (orthDRM lr X.shape (padCores lr X.shape cores)) r mu = X.psiTotal (orthDRM lr X.shape []) r mu := by
    cases X <;> rfl
  rw [en] at near
  refine ⟨near.1, ?_⟩
  have hsh : X.abs.toNumpy.shape = X.shape := by rw [Tensor.toNumpy_shape (Tensor.abs_valid hX), Tensor.abs_shape]
  obtain ⟨hPs, hMs', hent⟩ := near
  have hMs : _ = P.shape := hMs'.trans hPs.symm
  refine (frobD_of_entries (M := psiOf X.shape X.abs.toNumpy.get R' lr r.rank.reverse (cores.map ND.abs) mu)
    (flErr_nonneg hu _) hMs fun i => (hent i).1).trans ?_
  · refine mul_le_mul_of_nonneg_left ?_ (flErr_nonneg hu _)
    have hca : Cores (cores.map ND.abs) (fun k => (1 :: lr).getD k 0) fun k => X.shape.getD k 0 := by
      intro k hk
      rw [List.length_map] at hk
      rw [getD_eq (by simpa using hk), List.getElem_map]
      have := hc k hk
      rw [getD_eq hk] at this
      exact this
    have := front_prod (sh := X.shape) hca rfl (mu := mu) (by simp; omega) hmu (fun _ => rfl)
      ((r.rank.reverse ++ [1]).getD mu 0) (pcR X.shape X.abs.toNumpy.get R' (mu + 1))
      (P := psiOf X.shape X.abs.toNumpy.get R' lr r.rank.reverse (cores.map ND.abs) mu) rfl
      (fun a ha j hj b hb => by
        have hib : (psiOf X.shape X.abs.toNumpy.get R' lr r.rank.reverse (cores.map ND.abs) mu).get [a, j, b]
            = psiSpec X.shape X.abs.toNumpy.get (coreMats (cores.map ND.abs)) R' mu a j b := by
          have hin : InR [(1 :: lr).getD mu 0, X.shape.getD mu 0, (r.rank.reverse ++ [1]).getD mu 0] [a, j, b] :=
            ⟨ha, hj, hb, trivial⟩
          unfold psiOf
          rw [ND.ofFn_get hin]
          rfl
        rw [hib]
        exact psiSpec_right _ _ _ _ _ _ _ _)
    refine this.trans (le_of_eq ?_)
    unfold psiSize sketchedNorm rightSketch pcR
    rw [hsh]
    congr 1
    refine prod_congr rfl fun nu hnu => ?_
    have hnu : nu < cores.length := by rw [hn]; simpa using hnu
    rw [getD_eq (by simpa using hnu), List.getElem_map, frobN_abs, getD_eq hnu]

/-- All steps of a run. -/
structure FlHmtRun (u : ℝ) (env : Env ℝ) (X : Tensor ℝ) (lr : List ℕ)
    (om : Option (List (ND ℝ))) (r : DRM ℝ) (R R' : Mats ℝ) (cs : List (ND ℝ)) (n : ℕ) : Prop where
  len : cs.length = n
  cores : ∀ k < n, (cs.getD k (ND.zeros [])).shape
    = [(1 :: lr ++ [1]).getD k 0, X.shape.getD k 0, (1 :: lr ++ [1]).getD (k + 1) 0]
  step : ∀ mu < n, mu < X.shape.length - 1 → ∃ P,
    P.shape = (psiOf X.shape X.toNumpy.get R lr r.rank.reverse cs mu).shape ∧
    frobD P (psiOf X.shape X.toNumpy.get R lr r.rank.reverse cs mu) ≤ psiError u X lr r R' cs mu ∧
    orthStep env P (om.map fun l => l.getD mu (ND.zeros [])) = .ok (cs.getD mu (ND.zeros []))
  last : ∀ mu < n, ¬ mu < X.shape.length - 1 →
    frobD (cs.getD mu (ND.zeros [])) (psiOf X.shape X.toNumpy.get R lr r.rank.reverse cs mu)
      ≤ psiError u X lr r R' cs mu

theorem flFold_snoc {α β : Type*} {step : β → α → β → Prop} : ∀ {l : List α} {x : α} {A B : β},
    flFold step A (l ++ [x]) B → ∃ C, flFold step A l C ∧ step C x B
  | [], x, A, B, h => by obtain ⟨C, h1, h2⟩ := h; exact ⟨A, rfl, by rw [show B = C from h2]; exact h1⟩
  | y :: l, x, A, B, h => by
    obtain ⟨A', h1, h2⟩ := h
    obtain ⟨C, h3, h4⟩ := flFold_snoc h2
    exact ⟨C, ⟨A', h1, h3⟩, h4⟩

theorem fl_hmt_run {u : ℝ} (hu : 0 ≤ u) {env : Env ℝ} {X : Tensor ℝ} {r : DRM ℝ} {R R' : Mats ℝ} (hX : X.Valid)
    (hd : 2 ≤ X.shape.length) (hdist : X.Distinct) (hr : r.AcceptsT X) (hrt : r.transpose = true) (hS : StreamsWith env X r R)
    (hR' : ∀ t ∈ X.summands, ∀ mu < X.shape.length - 1, IsContrR t.abs (mu + 1) (r.rank.reverse.getD mu 0)
      (R' (mu + 1)) ((r.absD env t).getD mu (ND.zeros []))) (hR1 : R' X.shape.length = fun _ _ => 1)
    {lr : List ℕ} (hl : lr.length = X.shape.length - 1)
    (hrr : r.rank.reverse.length = X.shape.length - 1) {om : Option (List (ND ℝ))}
    (hom : OmShapes lr r.rank.reverse X.shape.length om) {rc : List (List (ND ℝ))} (hrc : r.FlContr u env X rc) :
    ∀ n ≤ X.shape.length, ∀ cs, flFold (fun cores mu cores' =>
        FlOrthStep u env X lr r.rank.reverse om rc cores mu cores') [] (List.range n) cs →
      FlHmtRun u env X lr om r R R' cs n
  | 0, _, cs, h => by
    have h : cs = [] := h
    subst h
    exact ⟨rfl, fun _ h => absurd h (by omega), fun _ h => absurd h (by omega), fun _ h => absurd h (by omega)⟩
  | n + 1, hn, cs, h => by
    rw [List.range_succ] at h
    obtain ⟨cs0, h1, lc, P, k1, k2, k3⟩ := flFold_snoc h
    have ih := fl_hmt_run hu hX hd hdist hr hrt hS hR' hR1 hl hrr hom hrc n (by omega) cs0 h1
    have hc0 : OrthCores lr X.shape cs0 := by
      intro k hk
      rw [ih.len] at hk
      rw [ih.cores k hk, aug_left (by omega), aug_right (by omega)]
      rfl
    obtain ⟨q1, q2⟩ := flPsi_err hu hX hd hdist hr hrt hS hR' hR1 hl hc0 ih.len (by omega) k1 hrc k2
    have q2 : frobD P (psiOf X.shape X.toNumpy.get R lr r.rank.reverse cs0 n) ≤ psiError u X lr r R' cs0 n := q2
    have hps := psiOf_shape X.shape X.toNumpy.get R lr r.rank.reverse cs0 n
    -- adding one core
    have ext : ∀ Q, cs = cs0 ++ [Q] → (∀ mu ≤ n, psiOf X.shape X.toNumpy.get R lr r.rank.reverse cs mu
        = psiOf X.shape X.toNumpy.get R lr r.rank.reverse cs0 mu ∧ psiError u X lr r R' cs mu = psiError u X lr r R' cs0 mu)
        ∧ (∀ mu < n, cs.getD mu (ND.zeros []) = cs0.getD mu (ND.zeros [])) ∧ cs.getD n (ND.zeros []) = Q := by
      intro Q e
      subst e
      refine ⟨fun mu hmu => ?_, fun mu hmu => List.getD_append _ _ _ _ (by rw [ih.len]; exact hmu), ?_⟩
      · have ht : (cs0 ++ [Q]).take mu = cs0.take mu := List.take_append_of_le_length (by rw [ih.len]; exact hmu)
        constructor
        · rw [← psiOf_take, ht, psiOf_take]
        · unfold psiError
          rw [← psiSize_take, ht, psiSize_take]
      · rw [List.getD_append_right _ _ _ _ (by rw [ih.len]), ih.len, Nat.sub_self]; rfl
    by_cases hlt : n < X.shape.length - 1
    · rw [if_pos hlt] at k3
      obtain ⟨Q, k3, k4⟩ := k3
      obtain ⟨x1, x2, x3⟩ := ext Q k4
      have hP3 : P.shape = [(1 :: lr).getD n 0, X.shape.getD n 0, r.rank.reverse.getD n 0] := by
        rw [q1, hps, List.getD_append _ _ _ _ (by omega)]
      refine ⟨by rw [k4]; simp [ih.len], fun k hk => ?_, fun mu hmu hm => ?_, fun mu hmu hm => ?_⟩
      · by_cases hk' : k < n
        · rw [x2 k hk']; exact ih.cores k hk'
        · obtain rfl : k = n := by omega
          rw [x3, aug_left (by omega), aug_right (by omega)]
          refine orthStep_shape (f := lr.getD k 0) hP3 ?_ k3
          cases om with
          | none => exact congrArg (fun l => List.getD l k 0) (show lr = r.rank.reverse from hom).symm
          | some om => exact hom k hlt
      · rw [(x1 mu (by omega)).1, (x1 mu (by omega)).2]
        by_cases hk' : mu < n
        · rw [x2 mu hk']; exact ih.step mu hk' hm
        · obtain rfl : mu = n := by omega
          rw [x3]; exact ⟨P, q1, q2, k3⟩
      · exact absurd hlt (by omega)
    · rw [if_neg hlt] at k3
      obtain ⟨x1, x2, x3⟩ := ext P k3
      refine ⟨by rw [k3]; simp [ih.len], fun k hk => ?_, fun mu hmu hm => ?_, fun mu hmu hm => ?_⟩
      · by_cases hk' : k < n
        · rw [x2 k hk']; exact ih.cores k hk'
        · obtain rfl : k = n := by omega
          rw [x3, q1, hps]
          have hk1 : k = lr.length := by omega
          have hk2 : (r.rank.reverse ++ [1]).getD k 0 = 1 := by
            rw [List.getD_append_right _ _ _ _ (by omega), show k - r.rank.reverse.length = 0 by omega]; rfl
          have e1 : (1 :: lr ++ [1]).getD k 0 = (1 :: lr).getD k 0 :=
            List.getD_append _ _ _ _ (by rw [List.length_cons]; omega)
          rw [e1, hk2, aug_last (by omega)]
      · rw [(x1 mu (by omega)).1, (x1 mu (by omega)).2, x2 mu (by omega)]; exact ih.step mu (by omega) hm
      · obtain rfl : mu = n := by omega
        rw [(x1 mu le_rfl).1, (x1 mu le_rfl).2, x3]
        exact q2

end TTS
