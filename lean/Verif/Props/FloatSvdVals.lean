import Verif.Proofs.FloatSvdVals
import Verif.Props.ApproxSvdVals
import Verif.Props.FloatRound

/-!
# C107: singular values of tensor trains in floating point arithmetic

The QR and SVD routines are backward stable with relative error `ε`; every other operation is rounded with relative error `u`.
-/

namespace TTS.Props

open Finset TTS.Spec

/-- The sweep fails when a bond is larger than the modes to its right allow. -/
theorem flSvdvalsLoop_fail {u : ℝ} {la : LinAlg} {ε : ℝ} (hs : la.SVDApprox ε) : ∀ (Cs : List (ND ℝ)) (C : ND ℝ)
    (r n s : ℕ), C.shape = [r, n, s] → TTChain 1 Cs.reverse r →
    (∃ j < Cs.length, bondOf (C :: Cs) j > (coreShape (C :: Cs)).getD j 0 * ((C :: Cs).getD j (ND.zeros [])).dim 2) →
    ∀ res, TT.FlSvdvalsLoop u la none (C :: Cs) res → res = .error .valueError
  | [], C, r, n, s, hC, hCs, ⟨j, hj, _⟩, _, _ => by simp at hj
  | D :: Ds, C, r, n, s, hC, hCs, ⟨j, hj, hjb⟩, res, hres => by
    rw [List.reverse_cons] at hCs
    obtain ⟨q, hD1, m, t, hD2, hD3⟩ := hCs.split
    cases hD3
    have hsvd := hs (C.reshape [r, n * s]) r (n * s) rfl
    obtain ⟨rest, hrun, rfl⟩ := flSvdvals_step hC hres
    clear hres
    generalize hUSV : la.svd (C.reshape [r, n * s]) = USV at hsvd hrun ⊢
    obtain ⟨U, S, Vt⟩ := USV
    simp only at hsvd hrun ⊢
    have hUsh : U.shape = [r, r] := hsvd.1
    have hSl : S.length = min r (n * s) := by
      obtain ⟨-, -, M', U', Vt', -, h, -, -, -⟩ := hsvd
      exact h.length
    have hUd : U.dim 1 = r := by unfold ND.dim; rw [hUsh]; rfl
    by_cases hne : U.dim 1 ≠ S.length
    · rw [flSvdvals_error hne hrun]; rfl
    · rw [not_not] at hne
      obtain ⟨W, E, hW, hE, hrun⟩ := flSvdvals_ok hne hrun
      rw [hUd, hSl] at hne
      have hd : (ND.diag S).shape = [r, r] := by
        show [S.length, S.length] = _
        rw [hSl, ← hne]
      have hWs : W.shape = [r, r] := hW.1.trans (ND.matmul_shape' hUsh hd)
      have hD' : E.shape = [q, m, r] := hE.1.trans (ND.es_ijk_kl_ijl_shape hD2 hWs)
      cases j with
      | zero =>
        exfalso
        have e1 : bondOf (C :: D :: Ds) 0 = r := (dim_of_shape3 hC).1
        have e2 : (coreShape (C :: D :: Ds)).getD 0 0 = n := (dim_of_shape3 hC).2.1
        have e3 : ((C :: D :: Ds).getD 0 (ND.zeros [])).dim 2 = s := (dim_of_shape3 hC).2.2
        rw [e1, e2, e3] at hjb
        have := min_le_right r (n * s)
        omega
      | succ j =>
        have := flSvdvalsLoop_fail hs Ds E q m r hD' hD1
          ⟨j, by simpa using hj, ?_⟩ _ hrun
        · rw [this]; rfl
        · cases j with
          | zero =>
            have e1 : bondOf (C :: D :: Ds) 1 = q := (dim_of_shape3 hD2).1
            have e2 : (coreShape (C :: D :: Ds)).getD 1 0 = m := (dim_of_shape3 hD2).2.1
            have e3 : ((C :: D :: Ds).getD 1 (ND.zeros [])).dim 2 = r := (dim_of_shape3 hD2).2.2
            have f1 : bondOf (E :: Ds) 0 = q := (dim_of_shape3 hD').1
            have f2 : (coreShape (E :: Ds)).getD 0 0 = m := (dim_of_shape3 hD').2.1
            have f3 : ((E :: Ds).getD 0 (ND.zeros [])).dim 2 = r :=
              (dim_of_shape3 hD').2.2
            rw [f1, f2, f3]
            rw [zero_add, e1, e2, e3] at hjb
            exact hjb
          | succ j => exact hjb

/-- **C107.** If the QR and SVD routines are backward stable with relative error `ε` and every other operation of `svdvals` is
rounded with relative error `u`, then, for every tensor train with `d` positive mode sizes and positive ranks, none above `R`, none of
whose bonds is larger than the modes to its right allow, every run of `svdvals` returns one list per mode, with as many numbers as in
exact arithmetic, nonnegative and decreasing, each of which differs from the singular value of the unfolding it stands for by at most
`(4(d-1)+1) ρ (1+ρ)^(4(d-1))` times the product of the norms of the cores, with `ρ = ε + (√R + ε) ((1+u)^(2R) - 1)`. -/
theorem C107 {u ε ρ : ℝ} {R : ℕ} (hu : 0 ≤ u) (hε : 0 ≤ ε) {la : LinAlg} (hq : la.QRApprox ε) (hs : la.SVDApprox ε) {X : TT ℝ}
    (hX : X.Valid) (hp : X.Pos) (hfit : FitsRight X.shape X.rank) (hR1 : 1 ≤ R) (hR : ∀ k ∈ X.rank, k ≤ R)
    (hρ : ρ = ε + (√ (R : ℝ) + ε) * flErr u (2 * R)) {res : Except PyErr (List (List ℝ))} (hres : X.FlSvdvals u la res) :
    ∃ L, res = .ok L ∧ L.length = X.shape.length ∧
      (∀ mu, 0 < mu → mu < X.shape.length → (L.getD mu []).length = (leftRanks 1 X.shape X.rank).getD (mu - 1) 0) ∧
      ∀ mu < X.shape.length, (∀ t, 0 ≤ (L.getD mu []).getD t 0) ∧
        (∀ s t, s ≤ t → (L.getD mu []).getD t 0 ≤ (L.getD mu []).getD s 0) ∧
        (∃ S, IsSingularValues X.toNumpy (max mu 1) S) ∧
        ∀ S, IsSingularValues X.toNumpy (max mu 1) S → ∀ t, |(L.getD mu []).getD t 0 - S.getD t 0|
          ≤ (4 * ((X.shape.length - 1 : ℕ) : ℝ) + 1) * ρ * (1 + ρ) ^ (4 * (X.shape.length - 1)) * X.coreNorms := by
  obtain ⟨O', hO', hres⟩ := hres
  have hs1 : (1 : ℝ) ≤ √ (R : ℝ) := by
    rw [show (1 : ℝ) = √ 1 from Real.sqrt_one.symm]
    exact Real.sqrt_le_sqrt (by exact_mod_cast hR1)
  have hη : 0 ≤ flErr u (2 * R) := sub_nonneg.2 (one_le_pow_u hu _)
  have hρ1 : ε + (1 + ε) * flErr u R ≤ ρ := by
    have h1 : flErr u R ≤ flErr u (2 * R) := sub_le_sub_right (pow_le_pow_right₀ (by linarith) (by omega)) 1
    have h2 : (1 + ε) * flErr u R ≤ (√ (R : ℝ) + ε) * flErr u (2 * R) :=
      mul_le_mul (by linarith) h1 (sub_nonneg.2 (one_le_pow_u hu _)) (by linarith)
    rw [hρ]; linarith
  have hρ0 : 0 ≤ ρ := by rw [hρ]; positivity
  obtain ⟨O, P, K, rfl, o2, p2, o3, p3, oL, pL, op, o7, b1, b2, -⟩ := fl_orth_approx hu hε hq hX hp hR hρ1 hO'
  obtain ⟨hOp, hOr⟩ := pos_of_recursion hX o2 hp o3 o7
  have hOR : ∀ k ∈ O.rank, k ≤ R := by
    intro k hk
    obtain ⟨i, hi, rfl⟩ := List.mem_iff_getElem.1 hk
    have h := hOr.2 i hi
    rw [List.getD_eq_getElem _ _ hi, List.getD_eq_getElem _ _ (by rw [← hOr.1]; exact hi)] at h
    exact h.trans (hR _ (List.getElem_mem _))
  dsimp only at hres
  obtain ⟨L, hL, rfl⟩ := hres
  obtain ⟨C, Cs, r, n, hrev, hC, hCs, hdl⟩ := tt_reverse o2
  have hcores : O.cores = (C :: Cs).reverse := by rw [← hrev, List.reverse_reverse]
  have hCL : C = K := by
    rw [oL, List.reverse_append] at hrev
    exact (List.cons.inj hrev).1.symm
  subst hCL
  obtain ⟨C', Cs', r', n', hrev', hC', hCs', hdl'⟩ := tt_reverse p2
  have hcores' : P.cores = (C' :: Cs').reverse := by rw [← hrev', List.reverse_reverse]
  have hCL' : C' = C := by
    rw [pL, List.reverse_append] at hrev'
    exact (List.cons.inj hrev').1.symm
  subst hCL'
  have hrn : [r', n', 1] = [r, n, 1] := by rw [← hC, ← hC']
  simp only [List.cons.injEq, and_true] at hrn
  obtain ⟨rfl, rfl⟩ := hrn
  have hPP : List.Forall₂ (Partner ε) Cs Cs' := by
    rw [hdl, hdl'] at op
    simpa using forall2_reverse op
  have hrl : O.rank.length = X.rank.length := by
    have a := rank_length o2
    have b := rank_length hX
    rw [o3] at a; omega
  obtain ⟨hb, hiff⟩ := fits_iff hX hp o2 o3 hrl o7 hrev
  have hOl : O.cores.length = Cs.length + 1 := by rw [← List.length_reverse, hrev]; rfl
  have hd : X.shape.length = Cs.length + 1 := by
    rw [← o3, ← hOl]; simp [TT.shape]
  have hN : X.shape.length - 1 = Cs.length := by omega
  rw [hN] at b1 b2
  have hshape' : (coreShape (C' :: Cs')).reverse = X.shape := by
    rw [← p3]
    show _ = coreShape P.cores
    rw [hcores']; exact List.map_reverse.symm
  have hdimR : ∀ D ∈ Cs, D.dim 2 ≤ R := by
    intro D hD
    have hDd : D ∈ O.cores.dropLast := by rw [hdl]; simpa using hD
    obtain ⟨E, hE, hED⟩ := chain_dim2 (show TTChain 1 O.cores 1 from o2.2) D hDd
    rw [← hED]
    exact hOR _ (List.mem_map.2 ⟨E, hE, rfl⟩)
  rw [hrev] at hL
  obtain ⟨L, rfl, l2, l3, l4⟩ := flSvdvalsLoop_approx hu hε hρ.ge hs Cs Cs' C' r' n' 1 hC hCs hCs' hPP (hiff.1 hfit) hdimR _ hL
  have hget : ∀ mu < X.shape.length, L.reverse.getD mu [] = L.getD (Cs.length - mu) [] := by
    intro mu hmu
    rw [List.getD_eq_getElem?_getD, List.getElem?_reverse (by omega), ← List.getD_eq_getElem?_getD, l2]
    rw [show Cs.length + 1 - 1 - mu = Cs.length - mu by omega]
  refine ⟨L.reverse, rfl, by rw [List.length_reverse, l2, hd], ?_, ?_⟩
  · intro mu h0 hmu
    rw [hget mu hmu, l3 _ (by omega), hb _ (by omega)]
    congr 1; omega
  · intro mu hmu
    rw [hget mu hmu]
    obtain ⟨g, g1, g2⟩ := l4 [] (fun _ _ => 1) P.toNumpy.get (by
      intro a ha b hb
      have ha : a = 0 := by omega
      have hb : b = 0 := by omega
      subst ha hb
      rw [← sumIdx_eq_sum]
      simp) (by
      intro p q _ hq'
      match q, hq' with
      | [], _ =>
        rw [sum_range_one, mul_one, List.append_nil, TT.toNumpy_get p2, ttEntry, hcores']; rfl)
      (Cs.length - mu) (by omega)
    rw [List.append_nil, hshape'] at g1 g2
    rw [show Cs.length - (Cs.length - mu) = mu by omega] at g1
    refine ⟨g1.1, g1.2.1, ?_, ?_⟩
    · obtain ⟨L', -, -, k3, -⟩ := C63 laChoice_qr laChoice_svd hX hp hfit
      exact ⟨_, k3 mu hmu⟩
    · intro S hS t
      have hS' := SVsF.of_spec hS
      rw [TT.toNumpy_shape hX] at hS'
      have hw := g1.weyl hS' t
      rw [List.take_append_drop, fdist_symm] at hw
      refine hw.trans ((fdist_triangle _ _ P.toNumpy.get _).trans ?_)
      rw [fdist_toNumpy hX, hN]
      refine sv_total hρ0 ?_ Cs.length b1 b2 g2
      unfold TT.coreNorms
      exact List.prod_nonneg fun x hx => by
        obtain ⟨A, -, rfl⟩ := List.mem_map.1 hx
        exact frobN_nonneg A

/-- **C107, failure.** If some bond is, after orthogonalisation, larger than the modes to its right allow, every run of `svdvals`
raises `ValueError`. -/
theorem C107_reject {u ε : ℝ} (hu : 0 ≤ u) (hε : 0 ≤ ε) {la : LinAlg} (hq : la.QRApprox ε) (hs : la.SVDApprox ε) {X : TT ℝ}
    (hX : X.Valid) (hp : X.Pos) (hfit : ¬ FitsRight X.shape X.rank) {res : Except PyErr (List (List ℝ))}
    (hres : X.FlSvdvals u la res) : res = .error .valueError := by
  obtain ⟨O', hO', hres⟩ := hres
  obtain ⟨O, P, K, rfl, o2, p2, o3, p3, oL, pL, op, o7, b1, b2, -⟩ :=
    fl_orth_approx hu hε hq hX hp (fun k hk => le_foldr_max hk) le_rfl hO'
  obtain ⟨C, Cs, r, n, hrev, hC, hCs, hdl⟩ := tt_reverse o2
  have hrl : O.rank.length = X.rank.length := by
    have a := rank_length o2
    have b := rank_length hX
    rw [o3] at a; omega
  obtain ⟨-, hiff⟩ := fits_iff hX hp o2 o3 hrl o7 hrev
  dsimp only at hres
  obtain ⟨L, hL, rfl⟩ := hres
  rw [hrev] at hL
  have := flSvdvalsLoop_fail hs Cs C r n 1 hC hCs (by
    by_contra hcon
    push Not at hcon
    exact hfit (hiff.2 hcon)) _ hL
  rw [this]; rfl

theorem flSvdvalsLoop_exact {u : ℝ} (hu : 0 ≤ u) (la : LinAlg) (US : Option (ND ℝ × List ℝ)) (Cs : List (ND ℝ)) :
    TT.FlSvdvalsLoop u la US Cs (TT.svdvalsLoop la US Cs) := by
  induction Cs generalizing US with
  | nil => rfl
  | cons C Cs ih =>
    have key : ∀ C' : ND ℝ, TT.FlSvdvalsLoop u la none (C' :: Cs) (TT.svdvalsLoop la none (C' :: Cs)) := by
      intro C'
      cases Cs with
      | nil => exact ⟨.ok C', rfl, _, ih _, rfl⟩
      | cons D Ds =>
        have e : TT.svdvalsLoop la none (C' :: D :: Ds)
            = (TT.svdvalsLoop la (some ((la.svd (C'.reshape [C'.dim 0, C'.dim 1 * C'.dim 2])).1,
              (la.svd (C'.reshape [C'.dim 0, C'.dim 1 * C'.dim 2])).2.1)) (D :: Ds)).map
                fun L => (la.svd (C'.reshape [C'.dim 0, C'.dim 1 * C'.dim 2])).2.1 :: L := by
          rw [TT.svdvalsLoop]
          · generalize TT.svdvalsLoop la _ (D :: Ds) = x
            cases x <;> rfl
          · simp
        exact ⟨.ok C', rfl, _, ih _, e⟩
    cases US with
    | none => exact key C
    | some US =>
      obtain ⟨U, S⟩ := US
      by_cases h : U.dim 1 ≠ S.length
      · refine ⟨.error .valueError, ?_, ?_⟩
        · dsimp only; rw [if_pos h]
        · unfold TT.svdvalsLoop; dsimp only; rw [if_pos h]
      · refine ⟨.ok (ND.es_ijk_kl_ijl C (U.matmul (ND.diag S))), ?_, ?_⟩
        · dsimp only; rw [if_neg h]
          exact ⟨_, _, FlMatmul.exact hu _ _, FlEinsum.exact hu _ (by simp) _, rfl⟩
        · have e : TT.svdvalsLoop la (some (U, S)) (C :: Cs)
              = TT.svdvalsLoop la none (ND.es_ijk_kl_ijl C (U.matmul (ND.diag S)) :: Cs) := by
            conv_lhs => unfold TT.svdvalsLoop
            conv_rhs => unfold TT.svdvalsLoop
            dsimp only; rw [if_neg h]
          rw [e]
          obtain ⟨C'', rfl, h'⟩ := key (ND.es_ijk_kl_ijl C (U.matmul (ND.diag S)))
          exact h'

/-- **C107, the routines of the code.** Exact arithmetic is one of the runs, for every unit roundoff. -/
theorem C107_runs {u : ℝ} (hu : 0 ≤ u) (la : LinAlg) (X : TT ℝ) : X.FlSvdvals u la (X.svdvals la) := by
  refine ⟨_, (C104_runs hu la X).1, ?_⟩
  unfold TT.svdvals
  cases X.orthogonalize la with
  | error e => rfl
  | ok tt => exact ⟨_, flSvdvalsLoop_exact hu la none tt.cores.reverse, rfl⟩

/-- the hypotheses, with routines off by `10⁻¹⁵`, a unit roundoff of `10⁻¹⁶` and the train of C93 -/
example : (badLa (1 / 10 ^ 15)).QRApprox (1 / 10 ^ 15) ∧ (badLa (1 / 10 ^ 15)).SVDApprox (1 / 10 ^ 15) ∧ x9.Valid ∧ x9.Pos ∧
    FitsRight x9.shape x9.rank ∧ (∀ k ∈ x9.rank, k ≤ max 1 (x9.rank.foldr max 0)) ∧
    x9.FlSvdvals (1 / 10 ^ 16) (badLa (1 / 10 ^ 15)) (x9.svdvals (badLa (1 / 10 ^ 15))) :=
  ⟨badLa_qr (by norm_num), badLa_svd (by norm_num) (by norm_num), x9_valid, x9_pos, fits9,
    fun _ hk => (le_foldr_max hk).trans (le_max_right _ _), C107_runs (by norm_num) _ _⟩

end TTS.Props
