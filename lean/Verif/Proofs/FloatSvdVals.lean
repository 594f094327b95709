import Verif.Proofs.ApproxSvdVals
import Verif.Proofs.FloatRound
import Verif.Model.FloatSvdVals

/-! # `svdvals` in floating point arithmetic -/

namespace TTS

open Finset TTS.Spec

theorem flSvdvals_last {u : ℝ} {la : LinAlg} {C : ND ℝ} {n s : ℕ} (hC : C.shape = [1, n, s]) {res : Except PyErr (List (List ℝ))}
    (h : TT.FlSvdvalsLoop u la none [C] res) : res = .ok [(la.svd (C.reshape [1 * n, s])).2.1] := by
  obtain ⟨d0, d1, d2'⟩ := dim_of_shape3 hC
  obtain ⟨C', rfl, h⟩ := h
  obtain ⟨rest, h1, h2⟩ := h
  have h1 : rest = .ok [] := h1
  subst h1
  rw [h2]
  dsimp only
  rw [d0, d1, d2']; rfl

theorem flSvdvals_step {u : ℝ} {la : LinAlg} {C D : ND ℝ} {Ds : List (ND ℝ)} {r n s : ℕ} (hC : C.shape = [r, n, s])
    {res : Except PyErr (List (List ℝ))} (h : TT.FlSvdvalsLoop u la none (C :: D :: Ds) res) :
    ∃ rest, TT.FlSvdvalsLoop u la (some ((la.svd (C.reshape [r, n * s])).1, (la.svd (C.reshape [r, n * s])).2.1)) (D :: Ds) rest ∧
      res = rest.map fun L => (la.svd (C.reshape [r, n * s])).2.1 :: L := by
  obtain ⟨d0, d1, d2'⟩ := dim_of_shape3 hC
  obtain ⟨C', rfl, h⟩ := h
  obtain ⟨rest, h1, h2⟩ := h
  dsimp only at h1 h2
  rw [d0, d1, d2'] at h1 h2
  exact ⟨rest, h1, h2⟩

theorem flSvdvals_ok {u : ℝ} {la : LinAlg} {U : ND ℝ} {S : List ℝ} {D : ND ℝ} {Ds : List (ND ℝ)} (hUS : U.dim 1 = S.length)
    {res : Except PyErr (List (List ℝ))} (h : TT.FlSvdvalsLoop u la (some (U, S)) (D :: Ds) res) :
    ∃ W E, FlMatmul u U (ND.diag S) W ∧ FlEinsum u [([.i, .j, .k], D), ([.k, .l], W)] [.i, .j, .l] E ∧
      TT.FlSvdvalsLoop u la none (E :: Ds) res := by
  obtain ⟨C', h1, h2⟩ := h
  dsimp only at h1
  rw [if_neg (by rw [hUS]; simp)] at h1
  obtain ⟨W, E, h3, h4, rfl⟩ := h1
  exact ⟨W, E, h3, h4, .ok E, rfl, h2⟩

theorem flSvdvals_error {u : ℝ} {la : LinAlg} {U : ND ℝ} {S : List ℝ} {D : ND ℝ} {Ds : List (ND ℝ)} (hUS : U.dim 1 ≠ S.length)
    {res : Except PyErr (List (List ℝ))} (h : TT.FlSvdvalsLoop u la (some (U, S)) (D :: Ds) res) : res = .error .valueError := by
  obtain ⟨C', h1, h2⟩ := h
  dsimp only at h1
  rw [if_pos hUS] at h1
  subst h1
  exact h2

theorem cols_all {U : ND ℝ} {m r : ℕ} (hU : U.shape = [m, r]) : U.cols 0 r = U := by
  have hs : (U.cols 0 r).shape = [m, r] := by rw [ND.cols_shape hU]; simp
  refine ND.ext' (hs.trans hU.symm) fun i hi => ?_
  rw [hs] at hi
  match i, hi with
  | [x, y], hi =>
    rw [ND.cols_get hU 0 r x y (by have : y < r := hi.2.1; omega), zero_add]

theorem flSvdvalsLoop_approx {u : ℝ} (hu : 0 ≤ u) {la : LinAlg} {ε ρ : ℝ} {R : ℕ} (hε : 0 ≤ ε)
    (hρ : ε + (√ (R : ℝ) + ε) * flErr u (2 * R) ≤ ρ) (hs : la.SVDApprox ε) : ∀ (Cs Cs' : List (ND ℝ)) (C : ND ℝ)
    (r n s : ℕ), C.shape = [r, n, s] → TTChain 1 Cs.reverse r → TTChain 1 Cs'.reverse r → List.Forall₂ (Partner ε) Cs Cs' →
    (∀ j < Cs.length, bondOf (C :: Cs) j ≤ (coreShape (C :: Cs)).getD j 0 * ((C :: Cs).getD j (ND.zeros [])).dim 2) →
    (∀ D ∈ Cs, D.dim 2 ≤ R) → ∀ res, TT.FlSvdvalsLoop u la none (C :: Cs) res →
    ∃ L, res = .ok L ∧ L.length = Cs.length + 1 ∧
      (∀ j < Cs.length, (L.getD j []).length = bondOf (C :: Cs) j) ∧
      ∀ (rs : List ℕ) (W : ℕ → List ℕ → ℝ) (f : List ℕ → ℝ), Orthn (idxSet rs) s W →
        (∀ p q, InR (coreShape (C :: Cs')).reverse p → InR rs q →
          f (p ++ q) = ∑ y ∈ range s, revVal (C :: Cs') p y * W y q) →
        ∀ j ≤ Cs.length, ∃ g, SVsF g (((coreShape (C :: Cs')).reverse ++ rs).take (max (Cs.length - j) 1))
          (((coreShape (C :: Cs')).reverse ++ rs).drop (max (Cs.length - j) 1)) (L.getD j []) ∧
          fdist ((coreShape (C :: Cs')).reverse ++ rs) f g
            ≤ (3 * (Cs.length : ℝ) + 1) * ρ * (1 + ρ) ^ (3 * Cs.length) * frobN C
  | [], _, C, r, n, s, hC, hCs, _, .nil, hb, hR, res, hres => by
    have hη : 0 ≤ flErr u (2 * R) := sub_nonneg.2 (one_le_pow_u hu _)
    have hξ : 0 ≤ (√ (R : ℝ) + ε) * flErr u (2 * R) := mul_nonneg (add_nonneg (Real.sqrt_nonneg _) hε) hη
    have hερ : ε ≤ ρ := by linarith
    have hρ0 : 0 ≤ ρ := by linarith
    cases hCs
    obtain ⟨d0, d1, d2'⟩ := dim_of_shape3 hC
    have hsvd := hs (C.reshape [1 * n, s]) (1 * n) s rfl
    have hrun := flSvdvals_last hC hres
    generalize hUSV : la.svd (C.reshape [1 * n, s]) = USV at hsvd hrun
    obtain ⟨U, S, Vt⟩ := USV
    simp only at hsvd hrun
    obtain ⟨-, -, M', U', Vt', hM's, hsvd, e1, -, -⟩ := hsvd
    refine ⟨[S], hrun, rfl, fun j hj => by simp at hj, ?_⟩
    intro rs W f hW hf j hj
    have hj0 : j = 0 := by simpa using hj
    subst hj0
    have hcs : (coreShape [C]).reverse = [n] := by rw [coreShape_cons, d1]; rfl
    -- the nearby core
    obtain ⟨B, hB⟩ : ∃ B, B = M'.reshape [1, n, s] := ⟨_, rfl⟩
    have hpr : ([1, n, s] : List ℕ).prod = M'.shape.prod := by rw [hM's]; simp
    have hBs : B.shape = [1, n, s] := by rw [hB]; rfl
    have hBM : B.reshape [1 * n, s] = M' := by
      rw [hB, ND.reshape_reshape hpr (by rw [hM's]), ← hM's, ND.reshape_self]
    rw [← hBM] at hsvd
    have hprC : ([1 * n, s] : List ℕ).prod = C.shape.prod := by rw [hC]; simp
    have hCB : frobD C B ≤ ε * frobN C := by
      have : frobD (C.reshape [1 * n, s]) (B.reshape [1 * n, s]) = frobD C B := frobD_reshape (by rw [hBs, hC]) hprC
      rw [← this, hBM, ← frobN_reshape hprC]; exact e1
    have hg : ∀ p q, InR (coreShape [C]).reverse p → InR rs q →
        gOf 1 s (revVal [B]) W (p ++ q) = ∑ y ∈ range s, revVal [B] p y * W y q := by
      intro p q hp _
      exact gOf_append (by rw [hp.length, hcs]; rfl)
    refine ⟨gOf 1 s (revVal [B]) W, ?_, ?_⟩
    · rw [hcs] at hg ⊢
      show SVsF _ [n] rs S
      refine ⟨hsvd.nonneg, hsvd.antitone, fun t p => U'.get [p.getD 0 0, t], fun t q => ∑ y ∈ range s, Vt'.get [t, y] * W y q,
        ?_, ?_, ?_⟩
      · intro a ha b hb
        rw [hsvd.length] at ha hb
        have := hsvd.orthU a (by omega) b (by omega)
        rw [sum_idxSet_cons, ← this, one_mul]
        refine sum_congr rfl fun i _ => ?_
        rw [← sumIdx_eq_sum]
        simp
      · intro a ha b hb
        rw [hsvd.length] at ha hb
        have := hsvd.orthV a (by omega) b (by omega)
        rw [← this]
        exact hW.inner (fun y => Vt'.get [a, y]) fun y => Vt'.get [b, y]
      · intro p q hp hq
        obtain ⟨i, rfl⟩ : ∃ i, p = [i] := by
          match p, hp with
          | [i], _ => exact ⟨i, rfl⟩
        have hi : i < n := hp.1
        rw [hg [i] q hp hq, hsvd.length]
        have e : ∀ y ∈ range s, revVal [B] [i] y * W y q
            = ∑ t ∈ range (min (1 * n) s), U'.get [i, t] * S.getD t 0 * (Vt'.get [t, y] * W y q) := by
          intro y hy
          have hy : y < s := by simpa using hy
          have h1 : revVal [B] [i] y = B.get [0, i, y] := by
            have := revVal_cons (Cs := []) hBs (by rfl) (p := []) rfl i y
            rw [List.nil_append] at this
            rw [this, sum_range_one]
            show (if (0 : ℕ) = 0 then (1 : ℝ) else 0) * _ = _
            simp
          have h2 : (B.reshape [1 * n, s]).get [i, y] = B.get [0, i, y] := by
            have := ND.reshape_merge12 hBs 0 i y (by simpa using hi)
            rwa [zero_mul, zero_add] at this
          rw [h1, ← h2, ← hsvd.mul i (by omega) y hy, sum_mul]
          exact sum_congr rfl fun t _ => by ring
        rw [sum_congr rfl e, sum_comm]
        refine sum_congr rfl fun t _ => ?_
        rw [mul_sum]; rfl
    · rw [fdist_gOf hW hf hg, rev_iso (Cs := []) rfl (by simp) hC hBs]
      have := mul_le_mul_of_nonneg_right hερ (frobN_nonneg C)
      refine hCB.trans (this.trans (le_of_eq ?_))
      simp
  | D :: Ds, D' :: Ds', C, r, n, s, hC, hCs, hCs', .cons hp hps, hb, hR, res, hres => by
    have hη : 0 ≤ flErr u (2 * R) := sub_nonneg.2 (one_le_pow_u hu _)
    have hξ : 0 ≤ (√ (R : ℝ) + ε) * flErr u (2 * R) := mul_nonneg (add_nonneg (Real.sqrt_nonneg _) hε) hη
    have hερ : ε ≤ ρ := by linarith
    have hρ0 : 0 ≤ ρ := by linarith
    rw [List.reverse_cons] at hCs hCs'
    obtain ⟨q, hD1, m, t, hD2, hD3⟩ := hCs.split
    cases hD3
    have hD2' : D'.shape = [q, m, r] := hp.1.trans hD2
    have hD1' : TTChain 1 Ds'.reverse q := by
      obtain ⟨q', k1, m', t', k2, k3⟩ := hCs'.split
      rw [hD2'] at k2
      cases k2
      exact k1
    have hOr : ∀ E ∈ Ds', E.LeftOrthogonal := by
      have : ∀ {l l' : List (ND ℝ)}, List.Forall₂ (Partner ε) l l' → ∀ E ∈ l', E.LeftOrthogonal := by
        intro l l' h
        induction h with
        | nil => intro E hE; cases hE
        | cons h _ ih =>
          intro E hE
          rcases List.mem_cons.1 hE with rfl | hE
          exacts [h.2.2, ih E hE]
      exact this hps
    obtain ⟨d0, d1, d2'⟩ := dim_of_shape3 hC
    have hr : r ≤ n * s := by
      have := hb 0 (by simp)
      have e1 : bondOf (C :: D :: Ds) 0 = r := d0
      have e2 : (coreShape (C :: D :: Ds)).getD 0 0 = n := d1
      have e3 : ((C :: D :: Ds).getD 0 (ND.zeros [])).dim 2 = s := d2'
      rwa [e1, e2, e3] at this
    have hsvd := hs (C.reshape [r, n * s]) r (n * s) rfl
    obtain ⟨rest, hrun, rfl⟩ := flSvdvals_step hC hres
    clear hres
    generalize hUSV : la.svd (C.reshape [r, n * s]) = USV at hsvd hrun ⊢
    obtain ⟨U, S, Vt⟩ := USV
    simp only at hsvd hrun ⊢
    have hUsh : U.shape = [r, r] := hsvd.1
    have hSl : S.length = r := by
      obtain ⟨-, -, M', U', Vt', -, h, -, -, -⟩ := hsvd
      rw [h.length, min_eq_left hr]
    have hUd : U.dim 1 = r := by unfold ND.dim; rw [hUsh]; rfl
    obtain ⟨W0, E, hW0, hE0, hrun⟩ := flSvdvals_ok (by rw [hUd, hSl]) hrun
    have hdg : (ND.diag S).shape = [r, r] := by
      show [S.length, S.length] = _
      rw [hSl]
    obtain ⟨US, hUSe⟩ : ∃ US, US = U.matmul (ND.diag S) := ⟨_, rfl⟩
    have hUS : US.shape = [r, r] := by rw [hUSe]; exact ND.matmul_shape' hUsh hdg
    have hUSg : ∀ x, ∀ t < r, US.get [x, t] = U.get [x, t] * S.getD t 0 := by
      intro x t ht
      rw [hUSe, ND.matmul_get hUsh hdg, sum_eq_single t]
      · rw [ND.diag_get, if_pos rfl]
      · intro y _ hy; rw [ND.diag_get, if_neg hy, mul_zero]
      · intro h; exact absurd (mem_range.2 ht) h
    obtain ⟨B, U', Vt', US', V', hst, hCB, hEd, hEn⟩ := approxSvStep hε hC hD2 hp hD1' hOr hsvd hr hUS hUSg
    have hrR : r ≤ R := by have := hR D (by simp); rwa [(dim_of_shape3 hD2).2.2] at this
    have hcU : U.cols 0 r = U := cols_all hUsh
    have hSt : S.take r = S := by rw [← hSl]; exact List.take_length
    obtain ⟨-, sE, hEE⟩ := fl_next hu (US := US) (k := r) hD2 (by rw [hcU, hSt]; exact hUSe) hUsh le_rfl hSl.ge
      (by rw [hcU, hSt]; exact hW0) hE0 hrR hrR
    have hUSn : frobN US ≤ (1 + ε) ^ 2 * frobN C := by
      rcases Nat.eq_zero_or_pos r with h0 | h0
      · have : frobN US = 0 := by
          refine pow_eq_zero_iff (two_ne_zero) |>.1 ?_
          rw [frobN_mat hUS, h0, sum_range_zero]
        rw [this]
        exact mul_nonneg (by positivity) (frobN_nonneg _)
      · exact us_norm hε hC hsvd h0 (by omega) hUS hUSg
    have hDn : frobN D ≤ √ (R : ℝ) + ε := by
      have h1 := frobN_le (A := D') (B := D) hp.1.symm
      rw [frobD_symm hp.1.symm, leftOrth_norm hD2' hp.2.2] at h1
      have h2 : √ (r : ℝ) ≤ √ (R : ℝ) := Real.sqrt_le_sqrt (Nat.cast_le.2 hrR)
      have h3 := hp.2.1
      linarith
    have hdE : frobD (ND.es_ijk_kl_ijl D US) E ≤ (√ (R : ℝ) + ε) * flErr u (2 * R) * ((1 + ε) ^ 2 * frobN C) := by
      refine hEE.trans ?_
      calc _ ≤ flErr u (2 * R) * ((√ (R : ℝ) + ε) * ((1 + ε) ^ 2 * frobN C)) :=
            mul_le_mul_of_nonneg_left (mul_le_mul hDn hUSn (frobN_nonneg _) (add_nonneg (Real.sqrt_nonneg _) hε)) hη
        _ = _ := by ring
    have sX := ND.es_ijk_kl_ijl_shape hD2 hUS
    have sE' := hst.hD'
    have hEd' : frobD E (ND.es_ijk_kl_ijl D' US') ≤ ρ * (1 + ρ) * (2 + ρ) * frobN C := by
      have h1 := frobD_triangle (A := E) (B := ND.es_ijk_kl_ijl D US) (C := ND.es_ijk_kl_ijl D' US') (sX.trans sE.symm)
      rw [frobD_symm (sX.trans sE.symm)] at h1
      have h2 := mul_le_mul_of_nonneg_right (fl_rho hε hξ hρ) (frobN_nonneg C)
      linarith
    have hEn' : frobN E ≤ (1 + ρ) ^ 3 * frobN C := by
      have h1 := frobN_le (A := ND.es_ijk_kl_ijl D US) (B := E) (sE.trans sX.symm)
      obtain ⟨x, hx⟩ : ∃ x, x = (√ (R : ℝ) + ε) * flErr u (2 * R) := ⟨_, rfl⟩
      rw [← hx] at hξ hρ hdE
      have h3 : (1 + ε) ^ 3 + x * (1 + ε) ^ 2 ≤ (1 + ρ) ^ 3 := by
        have e1 : (1 + ε) ^ 3 + x * (1 + ε) ^ 2 = (1 + ε + x) * (1 + ε) ^ 2 := by ring
        have e2 : (1 + ρ) ^ 3 = (1 + ρ) * (1 + ρ) ^ 2 := by ring
        rw [e1, e2]
        exact mul_le_mul (by linarith) (pow_le_pow_left₀ (by linarith) (by linarith) 2) (by positivity) (by linarith)
      have h4 := mul_le_mul_of_nonneg_right h3 (frobN_nonneg C)
      have h5 := frobD_symm (sE.trans sX.symm)
      linarith
    obtain ⟨L, rfl, l2, l3, l4⟩ := flSvdvalsLoop_approx hu hε hρ hs Ds Ds' E q m r sE hD1 hD1' hps (by
        intro j hj
        have := hb (j + 1) (by simpa using hj)
        cases j with
        | zero =>
          have e1 : bondOf (C :: D :: Ds) 1 = q := (dim_of_shape3 hD2).1
          have e2 : (coreShape (C :: D :: Ds)).getD 1 0 = m := (dim_of_shape3 hD2).2.1
          have e3 : ((C :: D :: Ds).getD 1 (ND.zeros [])).dim 2 = r := (dim_of_shape3 hD2).2.2
          have f1 : bondOf (E :: Ds) 0 = q := (dim_of_shape3 sE).1
          have f2 : (coreShape (E :: Ds)).getD 0 0 = m := (dim_of_shape3 sE).2.1
          have f3 : ((E :: Ds).getD 0 (ND.zeros [])).dim 2 = r := (dim_of_shape3 sE).2.2
          rw [f1, f2, f3]
          rw [zero_add, e1, e2, e3] at this
          exact this
        | succ j => exact this) (fun A hA => hR A (by simp [hA])) _ hrun
    refine ⟨S :: L, rfl, by simp [l2], ?_, ?_⟩
    · intro j hj
      cases j with
      | zero => rw [show (S :: L).getD 0 [] = S from rfl, hSl]; exact d0.symm
      | succ j =>
        have := l3 j (by simpa using hj)
        rw [show (S :: L).getD (j + 1) [] = L.getD j [] from rfl, this]
        cases j with
        | zero => show E.dim 0 = D.dim 0; rw [(dim_of_shape3 sE).1, (dim_of_shape3 hD2).1]
        | succ j => rfl
    · intro rs W f hW hf j hj
      have hlen : Ds.length = Ds'.length := hps.length_eq
      have hcsC : (coreShape (C :: D' :: Ds')).reverse = (coreShape (D' :: Ds')).reverse ++ [n] := by
        rw [coreShape_cons, d1, List.reverse_cons]
      have hlenD : (coreShape (D' :: Ds')).reverse.length = (D' :: Ds').length := by
        rw [List.length_reverse, coreShape_length]
      have hlenC : (coreShape (C :: D' :: Ds')).reverse.length = (C :: D' :: Ds').length := by
        rw [List.length_reverse, coreShape_length]
      have hRV : Orthn (idxSet (n :: rs)) r (rightVec Vt' s W) := (rightVec_orthn hW hst.orthV).mono hr
      obtain ⟨g1, hg1⟩ : ∃ g, g = gOf (C :: D' :: Ds').length s (revVal (B :: D' :: Ds')) W := ⟨_, rfl⟩
      have hg1v : ∀ p q, InR (coreShape (C :: D' :: Ds')).reverse p → InR rs q →
          g1 (p ++ q) = ∑ y ∈ range s, revVal (B :: D' :: Ds') p y * W y q := by
        intro p q hp _
        rw [hg1]; exact gOf_append (by rw [hp.length, hlenC])
      have hfg1 : fdist ((coreShape (C :: D' :: Ds')).reverse ++ rs) f g1 ≤ ρ * frobN C := by
        rw [fdist_gOf hW hf hg1v, rev_iso hst.chain hst.orth hC hst.hC]
        exact hCB.trans (mul_le_mul_of_nonneg_right hερ (frobN_nonneg C))
      have hval : ∀ p i q', InR (coreShape (D' :: Ds')).reverse p → i < n → InR rs q' →
          g1 (p ++ i :: q') = ∑ t ∈ range r, RoundStep.left D' Ds' U' r t p * S.getD t 0 * rightVec Vt' s W t (i :: q') := by
        intro p i q' hp hi hq'
        have e0 : p ++ i :: q' = (p ++ [i]) ++ q' := by simp
        rw [e0, hg1v (p ++ [i]) q' (by rw [hcsC]; exact hp.append (show InR [n] [i] from ⟨hi, trivial⟩)) hq']
        exact step_value hst hr W hp hi q'
      have har := sv_arith (c' := frobN E) hρ0 (frobN_nonneg C) hEn' Ds.length
      cases j with
      | zero =>
        refine ⟨g1, ?_, ?_⟩
        · have hm : max ((D :: Ds).length - 0) 1 = (coreShape (D' :: Ds')).reverse.length := by
            rw [hlenD, List.length_cons, List.length_cons]; omega
          rw [hm, hcsC, List.append_assoc, List.take_left, List.drop_left]
          show SVsF g1 (coreShape (D' :: Ds')).reverse (n :: rs) S
          refine ⟨hst.svd.nonneg, hst.svd.antitone, RoundStep.left D' Ds' U' r, rightVec Vt' s W, ?_, ?_, ?_⟩
          · rw [hSl]; exact hst.orthLeft
          · rw [hSl]; exact hRV
          · intro p q' hp hq'
            match q', hq' with
            | i :: q', hq' => rw [hval p i q' hp hq'.1 hq'.2, hSl]
        · exact hfg1.trans (sv_arith (c' := 0) hρ0 (frobN_nonneg C) (by have := frobN_nonneg C; positivity) (D :: Ds).length).1
      | succ j =>
        have hj' : j ≤ Ds.length := by simpa using hj
        have csE : coreShape (E :: Ds') = coreShape (D' :: Ds') := by
          rw [coreShape_cons, coreShape_cons, (dim_of_shape3 sE).2.1, (dim_of_shape3 hD2').2.1]
        obtain ⟨g2, hg2⟩ : ∃ g, g = gOf (D' :: Ds').length r (revVal (E :: Ds')) (rightVec Vt' s W) := ⟨_, rfl⟩
        have hg2v : ∀ p q, InR (coreShape (D' :: Ds')).reverse p → InR (n :: rs) q →
            g2 (p ++ q) = ∑ y ∈ range r, revVal (E :: Ds') p y * rightVec Vt' s W y q := by
          intro p q hp _
          rw [hg2]; exact gOf_append (by rw [hp.length, hlenD])
        have hg1v' : ∀ p q, InR (coreShape (D' :: Ds')).reverse p → InR (n :: rs) q →
            g1 (p ++ q) = ∑ y ∈ range r, revVal (ND.es_ijk_kl_ijl D' US' :: Ds') p y * rightVec Vt' s W y q := by
          intro p q' hp hq'
          have hpl : p.length = (D' :: Ds').length := by rw [hp.length, hlenD]
          match q', hq' with
          | i :: q', hq' =>
            rw [hval p i q' hp hq'.1 hq'.2]
            refine sum_congr rfl fun t ht => ?_
            rw [hst.next hpl (by simpa using ht)]
        obtain ⟨g, hg, hgd⟩ := l4 (n :: rs) (rightVec Vt' s W) g2 hRV (by rw [csE]; exact hg2v) j hj'
        rw [csE] at hg hgd
        have hg12 : fdist ((coreShape (D' :: Ds')).reverse ++ n :: rs) g1 g2 ≤ ρ * (1 + ρ) * (2 + ρ) * frobN C := by
          rw [fdist_symm, fdist_gOf hRV hg2v hg1v', ← csE, rev_iso hD1' hOr sE sE']; exact hEd'
        refine ⟨g, ?_, ?_⟩
        · rw [hcsC, List.append_assoc, show (D :: Ds).length - (j + 1) = Ds.length - j by simp]
          exact hg
        · have e : (coreShape (C :: D' :: Ds')).reverse ++ rs = (coreShape (D' :: Ds')).reverse ++ n :: rs := by
            rw [hcsC, List.append_assoc]; rfl
          rw [e] at hfg1 ⊢
          have t1 := fdist_triangle ((coreShape (D' :: Ds')).reverse ++ n :: rs) f g1 g
          have t2 := fdist_triangle ((coreShape (D' :: Ds')).reverse ++ n :: rs) g1 g2 g
          refine le_trans ?_ har.2
          linarith

end TTS
