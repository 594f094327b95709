import Verif.Proofs.RoundOpt
import Verif.Spec.SvdVals

/-! The sweep of `svdvals`. -/

namespace TTS

open Finset TTS.Spec

/-- Singular values of a function of row and column indices. -/
def SVsF (f : List ℕ → ℝ) (s1 s2 : List ℕ) (S : List ℝ) : Prop :=
  (∀ t, 0 ≤ S.getD t 0) ∧ (∀ s t, s ≤ t → S.getD t 0 ≤ S.getD s 0) ∧
  ∃ u v : ℕ → List ℕ → ℝ, Orthn (idxSet s1) S.length u ∧ Orthn (idxSet s2) S.length v ∧
    ∀ p q, InR s1 p → InR s2 q → f (p ++ q) = ∑ t ∈ range S.length, u t p * S.getD t 0 * v t q

theorem SVsF.spec {A : ND ℝ} {k : ℕ} {S : List ℝ} (h : SVsF A.get (A.shape.take k) (A.shape.drop k) S) :
    IsSingularValues A k S := by
  obtain ⟨h1, h2, u, v, hu, hv, hf⟩ := h
  refine ⟨h1, h2, u, v, ?_, ?_, hf⟩
  · intro s hs t ht
    rw [sumIdx_eq_sum]; exact hu s hs t ht
  · intro s hs t ht
    rw [sumIdx_eq_sum]; exact hv s hs t ht

theorem SVsF.of_spec {A : ND ℝ} {k : ℕ} {S : List ℝ} (h : IsSingularValues A k S) :
    SVsF A.get (A.shape.take k) (A.shape.drop k) S := by
  obtain ⟨h1, h2, u, v, hu, hv, hf⟩ := h
  refine ⟨h1, h2, u, v, ?_, ?_, hf⟩
  · intro s hs t ht
    have := hu s hs t ht
    rwa [sumIdx_eq_sum] at this
  · intro s hs t ht
    have := hv s hs t ht
    rwa [sumIdx_eq_sum] at this

theorem sum_idxSet_cons (n : ℕ) (rs : List ℕ) (F : List ℕ → ℝ) :
    ∑ q ∈ idxSet (n :: rs), F q = ∑ i ∈ range n, ∑ q ∈ idxSet rs, F (i :: q) := by
  rw [← sumIdx_eq_sum]
  show ∑ i ∈ range n, sumIdx rs (fun q => F (i :: q)) = _
  exact sum_congr rfl fun i _ => sumIdx_eq_sum _

/-- The right singular vectors, extended to the full index. -/
noncomputable def rightVec (Vt : ND ℝ) (s : ℕ) (W : ℕ → List ℕ → ℝ) (t : ℕ) : List ℕ → ℝ
  | [] => 0
  | i :: q => ∑ y ∈ range s, Vt.get [t, i * s + y] * W y q

theorem rightVec_orthn {Vt : ND ℝ} {n s : ℕ} {rs : List ℕ} {W : ℕ → List ℕ → ℝ} (hW : Orthn (idxSet rs) s W)
    (hV : Orthn (range (n * s)) (n * s) fun t j => Vt.get [t, j]) :
    Orthn (idxSet (n :: rs)) (n * s) (rightVec Vt s W) := by
  intro a ha b hb
  rw [sum_idxSet_cons]
  have := hV a ha b hb
  beta_reduce at this
  rw [range_mul_sum] at this
  rw [← this]
  refine sum_congr rfl fun i _ => ?_
  exact hW.inner (fun y => Vt.get [a, i * s + y]) fun y => Vt.get [b, i * s + y]

theorem svdvalsLoop_some (la : LinAlg) (U : ND ℝ) (S : List ℝ) (C : ND ℝ) (Cs : List (ND ℝ)) :
    TT.svdvalsLoop la (some (U, S)) (C :: Cs) = if U.dim 1 ≠ S.length then .error .valueError
      else TT.svdvalsLoop la none (ND.es_ijk_kl_ijl C (U.matmul (ND.diag S)) :: Cs) := by
  cases Cs <;>
  · by_cases h : U.dim 1 ≠ S.length
    · simp only [TT.svdvalsLoop, if_pos h]
    · simp only [TT.svdvalsLoop, if_neg h]

/-- One step of the sweep. -/
theorem svdvalsLoop_step (la : LinAlg) {C : ND ℝ} (D : ND ℝ) (Ds : List (ND ℝ)) {r n s : ℕ} (hC : C.shape = [r, n, s]) :
    TT.svdvalsLoop la none (C :: D :: Ds)
      = (TT.svdvalsLoop la (some ((la.svd (C.reshape [r, n * s])).1, (la.svd (C.reshape [r, n * s])).2.1)) (D :: Ds)).map
          fun o => (la.svd (C.reshape [r, n * s])).2.1 :: o := by
  obtain ⟨d0, d1, d2⟩ := dim_of_shape3 hC
  rw [TT.svdvalsLoop, d0, d1, d2]
  · cases TT.svdvalsLoop la (some ((la.svd (C.reshape [r, n * s])).1, (la.svd (C.reshape [r, n * s])).2.1)) (D :: Ds) <;>
      rfl
  · simp

/-- The sweep fails when a bond is larger than the modes to its right allow. -/
theorem svdvalsLoop_fail {la : LinAlg} (hs : la.SVDOk) : ∀ (Cs : List (ND ℝ)) (C : ND ℝ)
    (r n s : ℕ), C.shape = [r, n, s] → TTChain 1 Cs.reverse r →
    (∃ j < Cs.length, bondOf (C :: Cs) j > (coreShape (C :: Cs)).getD j 0 * ((C :: Cs).getD j (ND.zeros [])).dim 2) →
    TT.svdvalsLoop la none (C :: Cs) = .error .valueError
  | [], C, r, n, s, hC, hCs, ⟨j, hj, _⟩ => by simp at hj
  | D :: Ds, C, r, n, s, hC, hCs, ⟨j, hj, hjb⟩ => by
    rw [List.reverse_cons] at hCs
    obtain ⟨q, hD1, m, t, hD2, hD3⟩ := hCs.split
    cases hD3
    have hsvd := hs (C.reshape [r, n * s]) r (n * s) rfl
    rw [svdvalsLoop_step la D Ds hC, svdvalsLoop_some]
    generalize hUSV : la.svd (C.reshape [r, n * s]) = USV at hsvd
    obtain ⟨U, S, Vt⟩ := USV
    simp only at hsvd ⊢
    have hUd : U.dim 1 = r := by unfold ND.dim; rw [hsvd.shapeU]; rfl
    by_cases hne : U.dim 1 ≠ S.length
    · rw [if_pos hne]; rfl
    · rw [if_neg hne]
      rw [hUd, hsvd.length, not_not] at hne
      have hUS : (U.matmul (ND.diag S)).shape = [r, r] := by
        have hd : (ND.diag S).shape = [r, r] := by
          show [S.length, S.length] = _
          rw [hsvd.length, ← hne]
        exact ND.matmul_shape' hsvd.shapeU hd
      have hD' : (ND.es_ijk_kl_ijl D (U.matmul (ND.diag S))).shape = [q, m, r] := ND.es_ijk_kl_ijl_shape hD2 hUS
      cases j with
      | zero =>
        exfalso
        have e1 : bondOf (C :: D :: Ds) 0 = r := (dim_of_shape3 hC).1
        have e2 : (coreShape (C :: D :: Ds)).getD 0 0 = n := (dim_of_shape3 hC).2.1
        have e3 : ((C :: D :: Ds).getD 0 (ND.zeros [])).dim 2 = s := (dim_of_shape3 hC).2.2
        rw [e1, e2, e3] at hjb
        have := min_le_right r (n * s)
        omega
      | succ j =>
        have := svdvalsLoop_fail hs Ds (ND.es_ijk_kl_ijl D (U.matmul (ND.diag S))) q m r hD' hD1
          ⟨j, by simpa using hj, ?_⟩
        · rw [this]; rfl
        · cases j with
          | zero =>
            have e1 : bondOf (C :: D :: Ds) 1 = q := (dim_of_shape3 hD2).1
            have e2 : (coreShape (C :: D :: Ds)).getD 1 0 = m := (dim_of_shape3 hD2).2.1
            have e3 : ((C :: D :: Ds).getD 1 (ND.zeros [])).dim 2 = r := (dim_of_shape3 hD2).2.2
            have f1 : bondOf (ND.es_ijk_kl_ijl D (U.matmul (ND.diag S)) :: Ds) 0 = q := (dim_of_shape3 hD').1
            have f2 : (coreShape (ND.es_ijk_kl_ijl D (U.matmul (ND.diag S)) :: Ds)).getD 0 0 = m := (dim_of_shape3 hD').2.1
            have f3 : ((ND.es_ijk_kl_ijl D (U.matmul (ND.diag S)) :: Ds).getD 0 (ND.zeros [])).dim 2 = r :=
              (dim_of_shape3 hD').2.2
            rw [f1, f2, f3]
            rw [zero_add, e1, e2, e3] at hjb
            exact hjb
          | succ j => exact hjb

/-- The lists found by the sweep. -/
theorem svdvalsLoop_spec {la : LinAlg} (hs : la.SVDOk) : ∀ (Cs : List (ND ℝ)) (C : ND ℝ)
    (r n s : ℕ), C.shape = [r, n, s] → TTChain 1 Cs.reverse r → (∀ D ∈ Cs, D.LeftOrthogonal) →
    (∀ j < Cs.length, bondOf (C :: Cs) j ≤ (coreShape (C :: Cs)).getD j 0 * ((C :: Cs).getD j (ND.zeros [])).dim 2) →
    ∃ L, TT.svdvalsLoop la none (C :: Cs) = .ok L ∧ L.length = Cs.length + 1 ∧
      (∀ j < Cs.length, (L.getD j []).length = bondOf (C :: Cs) j) ∧
      ∀ (rs : List ℕ) (W : ℕ → List ℕ → ℝ) (f : List ℕ → ℝ), Orthn (idxSet rs) s W →
        (∀ p q, InR (coreShape (C :: Cs)).reverse p → InR rs q →
          f (p ++ q) = ∑ y ∈ range s, revVal (C :: Cs) p y * W y q) →
        ∀ j ≤ Cs.length, SVsF f (((coreShape (C :: Cs)).reverse ++ rs).take (max (Cs.length - j) 1))
          (((coreShape (C :: Cs)).reverse ++ rs).drop (max (Cs.length - j) 1)) (L.getD j [])
  | [], C, r, n, s, hC, hCs, hO, hb => by
    cases hCs
    obtain ⟨d0, d1, d2⟩ := dim_of_shape3 hC
    have hsvd := hs (C.reshape [1 * n, s]) (1 * n) s rfl
    have hrun : TT.svdvalsLoop la none [C] = .ok [(la.svd (C.reshape [1 * n, s])).2.1] := by
      rw [TT.svdvalsLoop, d0, d1, d2]; rfl
    generalize hUSV : la.svd (C.reshape [1 * n, s]) = USV at hsvd hrun
    obtain ⟨U, S, Vt⟩ := USV
    simp only at hsvd hrun
    refine ⟨[S], hrun, rfl, fun j hj => by simp at hj, ?_⟩
    intro rs W f hW hf j hj
    have hj0 : j = 0 := by simpa using hj
    subst hj0
    have hcs : (coreShape [C]).reverse = [n] := by rw [coreShape_cons, d1]; rfl
    rw [hcs] at hf
    rw [hcs]
    show SVsF f [n] rs S
    refine ⟨hsvd.nonneg, hsvd.antitone, fun t p => U.get [p.getD 0 0, t], fun t q => ∑ y ∈ range s, Vt.get [t, y] * W y q,
      ?_, ?_, ?_⟩
    · intro a ha b hb
      rw [hsvd.length] at ha hb
      have := hsvd.orthU a (by omega) b (by omega)
      rw [sum_idxSet_cons, ← this, one_mul]
      refine sum_congr rfl fun i _ => ?_
      rw [← sumIdx_eq_sum]
      simp
    · intro a ha b hb
      rw [hsvd.length] at ha hb
      have := hsvd.orthV a (by omega) b (by omega)
      rw [← this]
      exact hW.inner (fun y => Vt.get [a, y]) fun y => Vt.get [b, y]
    · intro p q hp hq
      obtain ⟨i, rfl⟩ : ∃ i, p = [i] := by
        match p, hp with
        | [i], _ => exact ⟨i, rfl⟩
      have hi : i < n := hp.1
      rw [hf [i] q hp hq, hsvd.length]
      have e : ∀ y ∈ range s, revVal [C] [i] y * W y q
          = ∑ t ∈ range (min (1 * n) s), U.get [i, t] * S.getD t 0 * (Vt.get [t, y] * W y q) := by
        intro y hy
        have hy : y < s := by simpa using hy
        have h1 : revVal [C] [i] y = C.get [0, i, y] := by
          have := revVal_cons (Cs := []) hC (by rfl) (p := []) rfl i y
          rw [List.nil_append] at this
          rw [this, sum_range_one]
          show (if (0 : ℕ) = 0 then (1 : ℝ) else 0) * _ = _
          simp
        have h2 : (C.reshape [1 * n, s]).get [i, y] = C.get [0, i, y] := by
          have := ND.reshape_merge12 hC 0 i y (by simpa using hi)
          rwa [zero_mul, zero_add] at this
        rw [h1, ← h2, ← hsvd.mul i (by omega) y hy, sum_mul]
        exact sum_congr rfl fun t _ => by ring
      rw [sum_congr rfl e, sum_comm]
      refine sum_congr rfl fun t _ => ?_
      rw [mul_sum]; rfl
  | D :: Ds, C, r, n, s, hC, hCs, hO, hb => by
    rw [List.reverse_cons] at hCs
    obtain ⟨q, hD1, m, t, hD2, hD3⟩ := hCs.split
    cases hD3
    obtain ⟨d0, d1, d2⟩ := dim_of_shape3 hC
    have hr : r ≤ n * s := by
      have := hb 0 (by simp)
      have e1 : bondOf (C :: D :: Ds) 0 = r := d0
      have e2 : (coreShape (C :: D :: Ds)).getD 0 0 = n := d1
      have e3 : ((C :: D :: Ds).getD 0 (ND.zeros [])).dim 2 = s := d2
      rwa [e1, e2, e3] at this
    have hmin : min r (n * s) = r := min_eq_left hr
    have hsvd := hs (C.reshape [r, n * s]) r (n * s) rfl
    have hrun := svdvalsLoop_step la D Ds hC
    rw [svdvalsLoop_some] at hrun
    generalize hUSV : la.svd (C.reshape [r, n * s]) = USV at hsvd hrun
    obtain ⟨U, S, Vt⟩ := USV
    simp only at hsvd hrun
    have hSl : S.length = r := by rw [hsvd.length, hmin]
    have hUd : U.dim 1 = r := by unfold ND.dim; rw [hsvd.shapeU]; rfl
    rw [if_neg (by rw [hUd, hSl]; simp)] at hrun
    have hdg : (ND.diag S).shape = [r, r] := by
      show [S.length, S.length] = _
      rw [hSl]
    obtain ⟨US, hUSe⟩ : ∃ US, US = U.matmul (ND.diag S) := ⟨_, rfl⟩
    rw [← hUSe] at hrun
    have hUS : US.shape = [r, r] := by rw [hUSe]; exact ND.matmul_shape' hsvd.shapeU hdg
    have hUSg : ∀ x, ∀ t < r, US.get [x, t] = U.get [x, t] * S.getD t 0 := by
      intro x t ht
      rw [hUSe, ND.matmul_get hsvd.shapeU hdg, sum_eq_single t]
      · rw [ND.diag_get, if_pos rfl]
      · intro y _ hy; rw [ND.diag_get, if_neg hy, mul_zero]
      · intro h; exact absurd (mem_range.2 ht) h
    obtain ⟨V, hV, hVg⟩ : ∃ V : ND ℝ, V.shape = [r, n, s] ∧
        ∀ t < r, ∀ i < n, ∀ y < s, V.get [t, i, y] = Vt.get [t, i * s + y] := by
      refine ⟨ND.ofFn [r, n, s] fun i => Vt.get [i.getD 0 0, i.getD 1 0 * s + i.getD 2 0], rfl, ?_⟩
      intro t ht i hi y hy
      rw [ND.ofFn_get (show InR [r, n, s] [t, i, y] from ⟨ht, hi, hy, trivial⟩)]; rfl
    have hst : RoundStep C D Ds U S Vt US V q m r n s r :=
      ⟨hC, hD2, hD1, hsvd, by omega, hUS, hUSg, hV, hVg, hO⟩
    obtain ⟨L, l1, l2, l3, l4⟩ := svdvalsLoop_spec hs Ds (ND.es_ijk_kl_ijl D US) q m r hst.hD' hD1
      (fun E hE => hO E (by simp [hE])) (by
        intro j hj
        have := hb (j + 1) (by simpa using hj)
        cases j with
        | zero =>
          have e1 : bondOf (C :: D :: Ds) 1 = q := (dim_of_shape3 hD2).1
          have e2 : (coreShape (C :: D :: Ds)).getD 1 0 = m := (dim_of_shape3 hD2).2.1
          have e3 : ((C :: D :: Ds).getD 1 (ND.zeros [])).dim 2 = r := (dim_of_shape3 hD2).2.2
          have f1 : bondOf (ND.es_ijk_kl_ijl D US :: Ds) 0 = q := (dim_of_shape3 hst.hD').1
          have f2 : (coreShape (ND.es_ijk_kl_ijl D US :: Ds)).getD 0 0 = m := (dim_of_shape3 hst.hD').2.1
          have f3 : ((ND.es_ijk_kl_ijl D US :: Ds).getD 0 (ND.zeros [])).dim 2 = r := (dim_of_shape3 hst.hD').2.2
          rw [f1, f2, f3]
          rw [zero_add, e1, e2, e3] at this
          exact this
        | succ j => exact this)
    refine ⟨S :: L, by rw [hrun, l1]; rfl, by simp [l2], ?_, ?_⟩
    · intro j hj
      cases j with
      | zero => rw [show (S :: L).getD 0 [] = S from rfl, hSl]; exact d0.symm
      | succ j =>
        have := l3 j (by simpa using hj)
        rw [show (S :: L).getD (j + 1) [] = L.getD j [] from rfl, this]
        cases j with
        | zero => show (ND.es_ijk_kl_ijl D US).dim 0 = D.dim 0; rw [(dim_of_shape3 hst.hD').1, (dim_of_shape3 hD2).1]
        | succ j => rfl
    · intro rs W f hW hf j hj
      have hcsC : (coreShape (C :: D :: Ds)).reverse = (coreShape (D :: Ds)).reverse ++ [n] := by
        rw [coreShape_cons, d1, List.reverse_cons]
      have hlenD : (coreShape (D :: Ds)).reverse.length = (D :: Ds).length := by
        rw [List.length_reverse, coreShape_length]
      have hval : ∀ p i q', InR (coreShape (D :: Ds)).reverse p → i < n → InR rs q' →
          f (p ++ i :: q') = ∑ t ∈ range r, RoundStep.left D Ds U r t p * S.getD t 0 * rightVec Vt s W t (i :: q') := by
        intro p i q' hp hi hq'
        have hpl : p.length = (D :: Ds).length := by rw [hp.length, hlenD]
        have e0 : p ++ i :: q' = (p ++ [i]) ++ q' := by simp
        rw [e0, hf (p ++ [i]) q' (by rw [hcsC]; exact hp.append (show InR [n] [i] from ⟨hi, trivial⟩)) hq']
        have e1 : ∀ y ∈ range s, revVal (C :: D :: Ds) (p ++ [i]) y * W y q'
            = ∑ t ∈ range r, RoundStep.left D Ds U r t p * S.getD t 0 * (Vt.get [t, i * s + y] * W y q') := by
          intro y hy
          rw [hst.val hpl hi (by simpa using hy), hmin, sum_mul]
          exact sum_congr rfl fun t _ => by ring
        rw [sum_congr rfl e1, sum_comm]
        refine sum_congr rfl fun t _ => ?_
        rw [rightVec, mul_sum]
      have hRV : Orthn (idxSet (n :: rs)) r (rightVec Vt s W) := (rightVec_orthn hW hst.orthV).mono hr
      cases j with
      | zero =>
        have hm : max ((D :: Ds).length - 0) 1 = (coreShape (D :: Ds)).reverse.length := by
          rw [hlenD, List.length_cons]; omega
        rw [hm, hcsC, List.append_assoc, List.take_left, List.drop_left]
        show SVsF f (coreShape (D :: Ds)).reverse (n :: rs) S
        refine ⟨hsvd.nonneg, hsvd.antitone, RoundStep.left D Ds U r, rightVec Vt s W, ?_, ?_, ?_⟩
        · rw [hSl]; exact hst.orthLeft
        · rw [hSl]; exact hRV
        · intro p q' hp hq'
          match q', hq' with
          | i :: q', hq' => rw [hval p i q' hp hq'.1 hq'.2, hSl]
      | succ j =>
        have hj' : j ≤ Ds.length := by simpa using hj
        have := l4 (n :: rs) (rightVec Vt s W) f hRV (by
          intro p q' hp hq'
          rw [hst.shapeD'] at hp
          have hpl : p.length = (D :: Ds).length := by rw [hp.length, hlenD]
          match q', hq' with
          | i :: q', hq' =>
            rw [hval p i q' hp hq'.1 hq'.2]
            refine sum_congr rfl fun t ht => ?_
            rw [hst.next hpl (by simpa using ht)]) j hj'
        rw [hst.shapeD'] at this
        rw [hcsC, List.append_assoc, show (D :: Ds).length - (j + 1) = Ds.length - j by simp]
        exact this

/-! ### Eckart–Young for the unfoldings -/

theorem sv_sum_sq {ι κ : Type*} {I : Finset ι} {J : Finset κ} {l : ℕ} {u : ℕ → ι → ℝ} {v : ℕ → κ → ℝ}
    (hu : Orthn I l u) (hv : Orthn J l v) {S : ℕ → ℝ} {M : ι → κ → ℝ}
    (hM : ∀ i ∈ I, ∀ j ∈ J, M i j = ∑ t ∈ range l, u t i * S t * v t j) :
    ∑ i ∈ I, ∑ j ∈ J, M i j ^ 2 = ∑ t ∈ range l, S t ^ 2 := by
  have e : ∀ i ∈ I, ∑ j ∈ J, M i j ^ 2 = ∑ t ∈ range l, (u t i * S t) ^ 2 := by
    intro i hi
    rw [← hv.parseval]
    exact sum_congr rfl fun j hj => by rw [hM i hi j hj]
  rw [sum_congr rfl e, sum_comm]
  refine sum_congr rfl fun t ht => ?_
  have := hu t (by simpa using ht) t (by simpa using ht)
  rw [if_pos rfl] at this
  simp only [mul_pow]
  rw [← sum_mul]
  simp only [sq (u _ _)]
  rw [this, one_mul]

/-- The distance to the approximation by the first `r` terms. -/
theorem sv_trunc {ι κ : Type*} {I : Finset ι} {J : Finset κ} {l : ℕ} {u : ℕ → ι → ℝ} {v : ℕ → κ → ℝ}
    (hu : Orthn I l u) (hv : Orthn J l v) {S : ℕ → ℝ} {M : ι → κ → ℝ}
    (hM : ∀ i ∈ I, ∀ j ∈ J, M i j = ∑ t ∈ range l, u t i * S t * v t j) (r : ℕ) :
    ∑ i ∈ I, ∑ j ∈ J, (M i j - ∑ t ∈ range r, (if t < l then u t i * S t else 0) * v t j) ^ 2
      = ∑ t ∈ Ico r l, S t ^ 2 := by
  rw [sv_sum_sq hu hv (S := fun t => if r ≤ t then S t else 0)
    (M := fun i j => M i j - ∑ t ∈ range r, (if t < l then u t i * S t else 0) * v t j)]
  · rcases le_total r l with h | h
    · rw [← sum_range_add_sum_Ico _ h]
      rw [sum_eq_zero (s := range r) fun t ht => by
        have : ¬ r ≤ t := by simpa using ht
        rw [if_neg this]; ring, zero_add]
      exact sum_congr rfl fun t ht => by rw [if_pos (mem_Ico.1 ht).1]
    · rw [Ico_eq_empty (by omega), sum_empty]
      exact sum_eq_zero fun t ht => by
        have : ¬ r ≤ t := by have := mem_range.1 ht; omega
        rw [if_neg this]; ring
  · intro i hi j hj
    rw [hM i hi j hj]
    have e : ∑ t ∈ range r, (if t < l then u t i * S t else 0) * v t j
        = ∑ t ∈ range l, if t < r then u t i * S t * v t j else 0 := by
      have e1 : ∀ t ∈ range r, (if t < l then u t i * S t else 0) * v t j
          = if t < l then u t i * S t * v t j else 0 := fun t _ => by split_ifs <;> ring
      rw [sum_congr rfl e1, ← sum_filter, ← sum_filter]
      refine sum_congr ?_ fun _ _ => rfl
      ext t; simp only [mem_filter, mem_range]; tauto
    rw [e, ← sum_sub_distrib]
    refine sum_congr rfl fun t _ => ?_
    by_cases h : t < r
    · rw [if_pos h, if_neg (by omega)]; ring
    · rw [if_neg h, if_pos (by omega)]; ring

/-- Eckart–Young for a decomposition with `l` terms. -/
theorem sv_lower {m n l : ℕ} {u v : ℕ → ℕ → ℝ} (oU : Orthn (range m) l u) (oV : Orthn (range n) l v) {S : ℕ → ℝ}
    (h0 : ∀ t, 0 ≤ S t) (hm : ∀ s t, s ≤ t → S t ≤ S s) {M : ℕ → ℕ → ℝ}
    (hM : ∀ i ∈ range m, ∀ j ∈ range n, M i j = ∑ t ∈ range l, u t i * S t * v t j) {r : ℕ} (f g : ℕ → ℕ → ℝ) :
    ∑ t ∈ Ico r l, S t ^ 2 ≤ ∑ i ∈ range m, ∑ j ∈ range n, (M i j - ∑ s ∈ range r, f i s * g s j) ^ 2 := by
  by_cases hr : l ≤ r
  · rw [Ico_eq_empty (by omega), sum_empty]
    exact sum_nonneg fun _ _ => sum_nonneg fun _ _ => sq_nonneg _
  · obtain ⟨Q, R, q1, q2, _⟩ := exists_qr f m r
    obtain ⟨k, hk⟩ : ∃ k, k = min m r := ⟨_, rfl⟩
    rw [← hk] at q1 q2
    have oQ : Orthn (range m) k fun a i => Q i a := q2
    have hB : ∀ i < m, ∀ j, ∑ s ∈ range r, f i s * g s j
        = ∑ a ∈ range k, (∑ s ∈ range r, R a s * g s j) * Q i a := by
      intro i hi j
      have : ∀ s ∈ range r, f i s * g s j = ∑ a ∈ range k, Q i a * R a s * g s j := by
        intro s hs
        rw [← q1 i hi s (by simpa using hs), sum_mul]
      rw [sum_congr rfl this, sum_comm]
      refine sum_congr rfl fun a _ => ?_
      rw [sum_mul]
      exact sum_congr rfl fun s _ => by ring
    have step : ∀ j ∈ range n, ∑ i ∈ range m, M i j ^ 2
          - ∑ a ∈ range k, (∑ i ∈ range m, M i j * Q i a) ^ 2
        ≤ ∑ i ∈ range m, (M i j - ∑ s ∈ range r, f i s * g s j) ^ 2 := by
      intro j _
      refine (oQ.best (fun i => M i j) fun a => ∑ s ∈ range r, R a s * g s j).trans (le_of_eq ?_)
      exact sum_congr rfl fun i hi => by rw [hB i (by simpa using hi) j]
    have tot := sum_le_sum step
    rw [sum_sub_distrib, sum_comm, sv_sum_sq oU oV hM] at tot
    rw [sum_comm (s := range m)]
    refine le_trans ?_ tot
    have proj : ∀ a, ∑ j ∈ range n, (∑ i ∈ range m, M i j * Q i a) ^ 2
        = ∑ t ∈ range l, S t ^ 2 * (∑ i ∈ range m, u t i * Q i a) ^ 2 := by
      intro a
      have : ∀ j ∈ range n, (∑ i ∈ range m, M i j * Q i a)
          = ∑ t ∈ range l, (S t * ∑ i ∈ range m, u t i * Q i a) * v t j := by
        intro j hj
        have e1 : ∀ i ∈ range m, M i j * Q i a = ∑ t ∈ range l, S t * (u t i * Q i a) * v t j := by
          intro i hi
          rw [hM i hi j hj, sum_mul]
          exact sum_congr rfl fun t _ => by ring
        rw [sum_congr rfl e1, sum_comm]
        refine sum_congr rfl fun t _ => ?_
        rw [mul_sum, sum_mul]
      rw [sum_congr rfl fun j hj => by rw [this j hj], oV.parseval]
      exact sum_congr rfl fun t _ => by rw [mul_pow]
    rw [sum_comm, sum_congr rfl fun a _ => proj a, sum_comm]
    simp only [← mul_sum]
    have w1 : ∀ t < l, ∑ a ∈ range k, (∑ i ∈ range m, u t i * Q i a) ^ 2 ≤ 1 := by
      intro t ht
      have := oQ.bessel fun i => u t i
      refine this.trans (le_of_eq ?_)
      have h' := oU t ht t ht
      rw [if_pos rfl] at h'
      simpa only [sq] using h'
    have w2 : ∑ t ∈ range l, ∑ a ∈ range k, (∑ i ∈ range m, u t i * Q i a) ^ 2 ≤ (r : ℝ) := by
      rw [sum_comm]
      have : ∀ a ∈ range k, ∑ t ∈ range l, (∑ i ∈ range m, u t i * Q i a) ^ 2 ≤ 1 := by
        intro a ha
        have h1 := oU.bessel fun i => Q i a
        have h2 := oQ a (by simpa using ha) a (by simpa using ha)
        rw [if_pos rfl] at h2
        have h3 : ∑ i ∈ range m, Q i a ^ 2 = 1 := by simpa only [sq] using h2
        rw [h3] at h1
        refine le_trans (le_of_eq ?_) h1
        exact sum_congr rfl fun t _ => by
          congr 1; exact sum_congr rfl fun i _ => mul_comm _ _
      refine (sum_le_sum this).trans ?_
      rw [sum_const, card_range, nsmul_eq_mul, mul_one]
      have : k ≤ r := by omega
      exact_mod_cast this
    have := sum_weights_le (show r ≤ l by omega) (c := fun t => S t ^ 2) (fun t => sq_nonneg _)
      (fun s t hst => pow_le_pow_left₀ (h0 t) (hm s t hst) 2)
      (w := fun t => ∑ a ∈ range k, (∑ i ∈ range m, u t i * Q i a) ^ 2)
      (fun t _ => sum_nonneg fun _ _ => sq_nonneg _) w1 w2
    rw [← sum_range_add_sum_Ico _ (show r ≤ l by omega)]
    linarith

theorem sum_range_unravel (s : List ℕ) (F : List ℕ → ℝ) :
    ∑ i ∈ range s.prod, F (unravel s i) = ∑ p ∈ idxSet s, F p := by rw [sum_unravel, sumIdx_eq_sum]

/-- Eckart–Young for an unfolding. -/
theorem SVsF.lower {f : List ℕ → ℝ} {s1 s2 : List ℕ} {S : List ℝ} (h : SVsF f s1 s2 S) {r : ℕ} (a b : List ℕ → ℕ → ℝ) :
    ∑ t ∈ Ico r S.length, S.getD t 0 ^ 2
      ≤ ∑ p ∈ idxSet s1, ∑ q ∈ idxSet s2, (f (p ++ q) - ∑ x ∈ range r, a p x * b q x) ^ 2 := by
  obtain ⟨h0, hm, u, v, hu, hv, hf⟩ := h
  have tr : ∀ (s : List ℕ) (w : ℕ → List ℕ → ℝ), Orthn (idxSet s) S.length w →
      Orthn (range s.prod) S.length fun t i => w t (unravel s i) := by
    intro s w hw x hx y hy
    rw [← hw x hx y hy]
    exact sum_range_unravel s fun p => w x p * w y p
  have := sv_lower (tr s1 u hu) (tr s2 v hv) h0 hm (M := fun i j => f (unravel s1 i ++ unravel s2 j))
    (fun i hi j hj => hf _ _ (unravel_inR (by simpa using hi)) (unravel_inR (by simpa using hj))) (r := r)
    (fun i x => a (unravel s1 i) x) fun x j => b (unravel s2 j) x
  refine this.trans (le_of_eq ?_)
  rw [← sum_range_unravel s1 fun p => ∑ q ∈ idxSet s2, (f (p ++ q) - ∑ x ∈ range r, a p x * b q x) ^ 2]
  refine sum_congr rfl fun i _ => ?_
  exact sum_range_unravel s2 fun q => (f (unravel s1 i ++ q) - ∑ x ∈ range r, a (unravel s1 i) x * b q x) ^ 2

theorem SVsF.tail_le {f : List ℕ → ℝ} {s1 s2 : List ℕ} {S T : List ℝ} (h : SVsF f s1 s2 S) (h' : SVsF f s1 s2 T)
    (r : ℕ) : ∑ t ∈ Ico r S.length, S.getD t 0 ^ 2 ≤ ∑ t ∈ Ico r T.length, T.getD t 0 ^ 2 := by
  obtain ⟨h0, hm, u, v, hu, hv, hf⟩ := h'
  rw [← sv_trunc hu hv (S := fun t => T.getD t 0) (M := fun p q => f (p ++ q))
    (fun p hp q hq => hf p q (mem_idxSet.1 hp) (mem_idxSet.1 hq)) r]
  exact h.lower (fun p t => if t < T.length then u t p * T.getD t 0 else 0) fun q t => v t q

/-- The singular values of an unfolding are unique, up to zeros at the end. -/
theorem SVsF.unique {f : List ℕ → ℝ} {s1 s2 : List ℕ} {S T : List ℝ} (h : SVsF f s1 s2 S) (h' : SVsF f s1 s2 T) (t : ℕ) :
    S.getD t 0 = T.getD t 0 := by
  have tails : ∀ r, ∑ t ∈ Ico r S.length, S.getD t 0 ^ 2 = ∑ t ∈ Ico r T.length, T.getD t 0 ^ 2 :=
    fun r => le_antisymm (h.tail_le h' r) (h'.tail_le h r)
  have one : ∀ L : List ℝ, ∑ t ∈ Ico t L.length, L.getD t 0 ^ 2
      = L.getD t 0 ^ 2 + ∑ t ∈ Ico (t + 1) L.length, L.getD t 0 ^ 2 := by
    intro L
    by_cases hl : t < L.length
    · exact sum_eq_sum_Ico_succ_bot hl _
    · rw [Ico_eq_empty (by omega), Ico_eq_empty (by omega), List.getD_eq_default _ _ (by omega)]; simp
  have e := tails t
  rw [one, one, tails (t + 1)] at e
  exact (sq_eq_sq₀ (h.1 t) (h'.1 t)).1 (by linarith)

end TTS
