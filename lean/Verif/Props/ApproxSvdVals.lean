import Verif.Proofs.ApproxSvdVals
import Verif.Props.SvdVals
import Verif.Props.ApproxRound

/-!
# C102: `svdvals` with inexact QR factorisations and singular value decompositions
-/

namespace TTS.Props

open Finset TTS.Spec

/-- The sweep fails when a bond is larger than the modes to its right allow. -/
theorem svdvalsLoop_fail_approx {la : LinAlg} {ε : ℝ} (hs : la.SVDApprox ε) : ∀ (Cs : List (ND ℝ)) (C : ND ℝ)
    (r n s : ℕ), C.shape = [r, n, s] → TTChain 1 Cs.reverse r →
    (∃ j < Cs.length, bondOf (C :: Cs) j > (coreShape (C :: Cs)).getD j 0 * ((C :: Cs).getD j (ND.zeros [])).dim 2) →
    TT.svdvalsLoop la none (C :: Cs) = .error .valueError
  | [], C, r, n, s, hC, hCs, ⟨j, hj, _⟩ => by simp at hj
  | D :: Ds, C, r, n, s, hC, hCs, ⟨j, hj, hjb⟩ => by
    rw [List.reverse_cons] at hCs
    obtain ⟨q, hD1, m, t, hD2, hD3⟩ := hCs.split
    cases hD3
    have hsvd := hs (C.reshape [r, n * s]) r (n * s) rfl
    rw [svdvalsLoop_step la D Ds hC, svdvalsLoop_some]
    generalize hUSV : la.svd (C.reshape [r, n * s]) = USV at hsvd
    obtain ⟨U, S, Vt⟩ := USV
    simp only at hsvd ⊢
    have hUsh : U.shape = [r, r] := hsvd.1
    have hSl : S.length = min r (n * s) := by
      obtain ⟨-, -, M', U', Vt', -, h, -, -, -⟩ := hsvd
      exact h.length
    have hUd : U.dim 1 = r := by unfold ND.dim; rw [hUsh]; rfl
    by_cases hne : U.dim 1 ≠ S.length
    · rw [if_pos hne]; rfl
    · rw [if_neg hne]
      rw [hUd, hSl, not_not] at hne
      have hUS : (U.matmul (ND.diag S)).shape = [r, r] := by
        have hd : (ND.diag S).shape = [r, r] := by
          show [S.length, S.length] = _
          rw [hSl, ← hne]
        exact ND.matmul_shape' hUsh hd
      have hD' : (ND.es_ijk_kl_ijl D (U.matmul (ND.diag S))).shape = [q, m, r] := ND.es_ijk_kl_ijl_shape hD2 hUS
      cases j with
      | zero =>
        exfalso
        have e1 : bondOf (C :: D :: Ds) 0 = r := (dim_of_shape3 hC).1
        have e2 : (coreShape (C :: D :: Ds)).getD 0 0 = n := (dim_of_shape3 hC).2.1
        have e3 : ((C :: D :: Ds).getD 0 (ND.zeros [])).dim 2 = s := (dim_of_shape3 hC).2.2
        rw [e1, e2, e3] at hjb
        have := min_le_right r (n * s)
        omega
      | succ j =>
        have := svdvalsLoop_fail_approx hs Ds (ND.es_ijk_kl_ijl D (U.matmul (ND.diag S))) q m r hD' hD1
          ⟨j, by simpa using hj, ?_⟩
        · rw [this]; rfl
        · cases j with
          | zero =>
            have e1 : bondOf (C :: D :: Ds) 1 = q := (dim_of_shape3 hD2).1
            have e2 : (coreShape (C :: D :: Ds)).getD 1 0 = m := (dim_of_shape3 hD2).2.1
            have e3 : ((C :: D :: Ds).getD 1 (ND.zeros [])).dim 2 = r := (dim_of_shape3 hD2).2.2
            have f1 : bondOf (ND.es_ijk_kl_ijl D (U.matmul (ND.diag S)) :: Ds) 0 = q := (dim_of_shape3 hD').1
            have f2 : (coreShape (ND.es_ijk_kl_ijl D (U.matmul (ND.diag S)) :: Ds)).getD 0 0 = m := (dim_of_shape3 hD').2.1
            have f3 : ((ND.es_ijk_kl_ijl D (U.matmul (ND.diag S)) :: Ds).getD 0 (ND.zeros [])).dim 2 = r :=
              (dim_of_shape3 hD').2.2
            rw [f1, f2, f3]
            rw [zero_add, e1, e2, e3] at hjb
            exact hjb
          | succ j => exact hjb

theorem sv_total {ε c l a b : ℝ} (hε : 0 ≤ ε) (hc : 0 ≤ c) (N : ℕ) (hl : l ≤ (1 + ε) ^ N * c)
    (ha : a ≤ N * ε * (1 + ε) ^ N * c) (hb : b ≤ (3 * (N : ℝ) + 1) * ε * (1 + ε) ^ (3 * N) * l) :
    a + b ≤ (4 * (N : ℝ) + 1) * ε * (1 + ε) ^ (4 * N) * c := by
  have hN : (0 : ℝ) ≤ N := Nat.cast_nonneg N
  have h1 : (3 * (N : ℝ) + 1) * ε * (1 + ε) ^ (3 * N) * l ≤ (3 * (N : ℝ) + 1) * ε * (1 + ε) ^ (3 * N) * ((1 + ε) ^ N * c) :=
    mul_le_mul_of_nonneg_left hl (by positivity)
  have h2 : N * ε * (1 + ε) ^ N * c ≤ N * ε * (1 + ε) ^ (4 * N) * c := by
    refine mul_le_mul_of_nonneg_right (mul_le_mul_of_nonneg_left ?_ (by positivity)) hc
    exact pow_le_pow_right₀ (by linarith) (by omega)
  have e : (4 * (N : ℝ) + 1) * ε * (1 + ε) ^ (4 * N) * c
      = N * ε * (1 + ε) ^ (4 * N) * c + (3 * (N : ℝ) + 1) * ε * (1 + ε) ^ (3 * N) * ((1 + ε) ^ N * c) := by
    rw [show 4 * N = 3 * N + N by ring, pow_add]; ring
  rw [e]; linarith

theorem fdist_toNumpy {X P : TT ℝ} (hX : X.Valid) : fdist X.shape X.toNumpy.get P.toNumpy.get = frobD X.toNumpy P.toNumpy := by
  unfold fdist frobD distSq
  rw [TT.toNumpy_shape hX]

/-- **C102.** If the QR and SVD routines are backward stable with relative error `ε`, then, for every tensor train with `d`
positive mode sizes and positive ranks none of whose bonds is larger than the modes to its right allow, `svdvals` returns one list
per mode, with as many numbers as in exact arithmetic, nonnegative and decreasing, each of which differs from the singular value of
the unfolding it stands for by at most `(4(d-1)+1) ε (1+ε)^(4(d-1))` times the product of the norms of the cores. -/
theorem C102 {la : LinAlg} {ε : ℝ} (hε : 0 ≤ ε) (hq : la.QRApprox ε) (hs : la.SVDApprox ε) {X : TT ℝ} (hX : X.Valid) (hp : X.Pos)
    (hfit : FitsRight X.shape X.rank) :
    ∃ L, X.svdvals la = .ok L ∧ L.length = X.shape.length ∧
      (∀ mu, 0 < mu → mu < X.shape.length → (L.getD mu []).length = (leftRanks 1 X.shape X.rank).getD (mu - 1) 0) ∧
      ∀ mu < X.shape.length, (∀ t, 0 ≤ (L.getD mu []).getD t 0) ∧
        (∀ s t, s ≤ t → (L.getD mu []).getD t 0 ≤ (L.getD mu []).getD s 0) ∧
        (∃ S, IsSingularValues X.toNumpy (max mu 1) S) ∧
        ∀ S, IsSingularValues X.toNumpy (max mu 1) S → ∀ t, |(L.getD mu []).getD t 0 - S.getD t 0|
          ≤ (4 * ((X.shape.length - 1 : ℕ) : ℝ) + 1) * ε * (1 + ε) ^ (4 * (X.shape.length - 1)) * X.coreNorms := by
  obtain ⟨O, P, K, o1, o2, p2, o3, p3, oL, pL, op, o7, b1, b2, -, -⟩ := orth_approx hε hq hX hp
  obtain ⟨C, Cs, r, n, hrev, hC, hCs, hdl⟩ := tt_reverse o2
  have hcores : O.cores = (C :: Cs).reverse := by rw [← hrev, List.reverse_reverse]
  have hCL : C = K := by
    rw [oL, List.reverse_append] at hrev
    exact (List.cons.inj hrev).1.symm
  subst hCL
  obtain ⟨C', Cs', r', n', hrev', hC', hCs', hdl'⟩ := tt_reverse p2
  have hcores' : P.cores = (C' :: Cs').reverse := by rw [← hrev', List.reverse_reverse]
  have hCL' : C' = C := by
    rw [pL, List.reverse_append] at hrev'
    exact (List.cons.inj hrev').1.symm
  subst hCL'
  have hrn : [r', n', 1] = [r, n, 1] := by rw [← hC, ← hC']
  simp only [List.cons.injEq, and_true] at hrn
  obtain ⟨rfl, rfl⟩ := hrn
  have hPP : List.Forall₂ (Partner ε) Cs Cs' := by
    rw [hdl, hdl'] at op
    simpa using forall2_reverse op
  have hrl : O.rank.length = X.rank.length := by
    have a := rank_length o2
    have b := rank_length hX
    rw [o3] at a; omega
  obtain ⟨hb, hiff⟩ := fits_iff hX hp o2 o3 hrl o7 hrev
  have hOl : O.cores.length = Cs.length + 1 := by rw [← List.length_reverse, hrev]; rfl
  have hd : X.shape.length = Cs.length + 1 := by
    rw [← o3, ← hOl]; simp [TT.shape]
  have hN : X.shape.length - 1 = Cs.length := by omega
  rw [hN] at b1 b2
  have hshape' : (coreShape (C' :: Cs')).reverse = X.shape := by
    rw [← p3]
    show _ = coreShape P.cores
    rw [hcores']; exact List.map_reverse.symm
  obtain ⟨L, l1, l2, l3, l4⟩ := svdvalsLoop_approx hε hs Cs Cs' C' r' n' 1 hC hCs hCs' hPP (hiff.1 hfit)
  have hget : ∀ mu < X.shape.length, L.reverse.getD mu [] = L.getD (Cs.length - mu) [] := by
    intro mu hmu
    rw [List.getD_eq_getElem?_getD, List.getElem?_reverse (by omega), ← List.getD_eq_getElem?_getD, l2]
    rw [show Cs.length + 1 - 1 - mu = Cs.length - mu by omega]
  refine ⟨L.reverse, ?_, by rw [List.length_reverse, l2, hd], ?_, ?_⟩
  · unfold TT.svdvals
    rw [o1]
    dsimp only
    rw [hrev, l1]; rfl
  · intro mu h0 hmu
    rw [hget mu hmu, l3 _ (by omega), hb _ (by omega)]
    congr 1; omega
  · intro mu hmu
    rw [hget mu hmu]
    obtain ⟨g, g1, g2⟩ := l4 [] (fun _ _ => 1) P.toNumpy.get (by
      intro a ha b hb
      have ha : a = 0 := by omega
      have hb : b = 0 := by omega
      subst ha hb
      rw [← sumIdx_eq_sum]
      simp) (by
      intro p q _ hq'
      match q, hq' with
      | [], _ =>
        rw [sum_range_one, mul_one, List.append_nil, TT.toNumpy_get p2, ttEntry, hcores']; rfl)
      (Cs.length - mu) (by omega)
    rw [List.append_nil, hshape'] at g1 g2
    rw [show Cs.length - (Cs.length - mu) = mu by omega] at g1
    refine ⟨g1.1, g1.2.1, ?_, ?_⟩
    · obtain ⟨L', -, -, k3, -⟩ := C63 laChoice_qr laChoice_svd hX hp hfit
      exact ⟨_, k3 mu hmu⟩
    · intro S hS t
      have hS' := SVsF.of_spec hS
      rw [TT.toNumpy_shape hX] at hS'
      have hw := g1.weyl hS' t
      rw [List.take_append_drop, fdist_symm] at hw
      refine hw.trans ((fdist_triangle _ _ P.toNumpy.get _).trans ?_)
      rw [fdist_toNumpy hX, hN]
      refine sv_total hε ?_ Cs.length b1 b2 g2
      unfold TT.coreNorms
      exact List.prod_nonneg fun x hx => by
        obtain ⟨A, -, rfl⟩ := List.mem_map.1 hx
        exact frobN_nonneg A

/-- **C102, failure.** If some bond is, after orthogonalisation, larger than the modes to its right allow, `svdvals` raises
`ValueError` with inexact routines as well. -/
theorem C102_reject {la : LinAlg} {ε : ℝ} (hε : 0 ≤ ε) (hq : la.QRApprox ε) (hs : la.SVDApprox ε) {X : TT ℝ} (hX : X.Valid)
    (hp : X.Pos) (hfit : ¬ FitsRight X.shape X.rank) : X.svdvals la = .error .valueError := by
  obtain ⟨O, P, K, o1, o2, p2, o3, p3, oL, pL, op, o7, b1, b2, -, -⟩ := orth_approx hε hq hX hp
  obtain ⟨C, Cs, r, n, hrev, hC, hCs, hdl⟩ := tt_reverse o2
  have hrl : O.rank.length = X.rank.length := by
    have a := rank_length o2
    have b := rank_length hX
    rw [o3] at a; omega
  obtain ⟨-, hiff⟩ := fits_iff hX hp o2 o3 hrl o7 hrev
  have := svdvalsLoop_fail_approx hs Cs C r n 1 hC hCs (by
    by_contra hcon
    push Not at hcon
    exact hfit (hiff.2 hcon))
  unfold TT.svdvals
  rw [o1]
  dsimp only
  rw [hrev, this]; rfl

/-- **C102, stability of singular values.** The singular values of an unfolding change by at most the distance between the
tensors (Weyl's inequality), so that two tensors within `δ` of each other have singular values within `δ`. -/
theorem C102_weyl {A B : ND ℝ} {k : ℕ} {S T : List ℝ} (hAB : B.shape = A.shape) (hS : IsSingularValues A k S)
    (hT : IsSingularValues B k T) (t : ℕ) : |S.getD t 0 - T.getD t 0| ≤ frobD A B := by
  have h1 := SVsF.of_spec hS
  have h2 := SVsF.of_spec hT
  rw [hAB] at h2
  have := h1.weyl h2 t
  rwa [List.take_append_drop] at this

theorem fits9 : FitsRight x9.shape x9.rank := by
  have e1 : x9.shape = [2, 3, 2] := rfl
  have e2 : x9.rank = [2, 2] := rfl
  rw [e1, e2]
  unfold FitsRight
  decide

/-- routines that are off by `10⁻¹⁵` -/
example : (badLa (1 / 10 ^ 15)).QRApprox (1 / 10 ^ 15) ∧ (badLa (1 / 10 ^ 15)).SVDApprox (1 / 10 ^ 15) ∧ x9.Valid ∧ x9.Pos ∧
    FitsRight x9.shape x9.rank :=
  ⟨badLa_qr (by norm_num), badLa_svd (by norm_num) (by norm_num), x9_valid, x9_pos, fits9⟩

/-- Exact routines meet the hypotheses with `ε = 0`, where the error is zero. -/
theorem C102_of_exact {la : LinAlg} (hq : la.QROk) (hs : la.SVDOk) {X : TT ℝ} (hX : X.Valid) (hp : X.Pos)
    (hfit : FitsRight X.shape X.rank) : ∃ L, X.svdvals la = .ok L ∧ ∀ mu < X.shape.length, ∀ S,
      IsSingularValues X.toNumpy (max mu 1) S → ∀ t, (L.getD mu []).getD t 0 = S.getD t 0 := by
  obtain ⟨L, l1, -, -, l4⟩ := C102 le_rfl (approxQr_of_exact hq le_rfl) (approxSvd_of_exact hs le_rfl) hX hp hfit
  refine ⟨L, l1, fun mu hmu S hS t => ?_⟩
  have := (l4 mu hmu).2.2.2 S hS t
  rw [mul_zero, zero_mul, zero_mul] at this
  exact sub_eq_zero.1 (abs_eq_zero.1 (le_antisymm this (abs_nonneg _)))

end TTS.Props
