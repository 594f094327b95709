import Verif.Proofs.FloatRun
import Verif.Proofs.Shapes
import Verif.Model.FloatSketch

/-! Rounding errors of the contractions with DRMs. -/

namespace TTS
open Finset ND

/-- `NDNear` with `n` roundings. -/
def NN (u : ℝ) (n : ℕ) (C A M : ND ℝ) : Prop := NDNear ((1 + u) ^ n) C A M

namespace NN
variable {u : ℝ} {n m n1 n2 n3 : ℕ} {C A M C1 A1 M1 C2 A2 M2 C3 A3 M3 : ND ℝ}

theorem mono (hu : 0 ≤ u) (h : NN u n C A M) (hnm : n ≤ m) : NN u m C A M :=
  NDNear.mono h (pow_le_pow_right₀ (by linarith) hnm)

theorem rfl' (A : ND ℝ) : NN u 0 A A A.abs := by
  show NDNear _ _ _ _
  rw [pow_zero]; exact NDNear.rfl' A

theorem of_one (h : NDNear 1 C A M) : NN u 0 C A M := by
  show NDNear _ _ _ _
  rw [pow_zero]; exact h

theorem e2 (hu : 0 ≤ u) (h1 : NN u n1 C1 A1 M1) (h2 : NN u n2 C2 A2 M2) {l1 l2 out : List Lb}
    (h : FlEinsum u [(l1, C1), (l2, C2)] out C) {t : ℕ}
    (ht : einsumTerms [(l1, A1), (l2, A2)] out = t) :
    NN u (n1 + n2 + t) C (einsum [(l1, A1), (l2, A2)] out) (einsum [(l1, M1), (l2, M2)] out) := by
  have := NDNear.einsum2 hu (one_le_pow_u hu n1) (one_le_pow_u hu n2) h1 h2 l1 l2 out h
  rw [ht, ← pow_add, ← pow_add, Nat.add_comm t] at this
  exact this

theorem e3 (hu : 0 ≤ u) (h1 : NN u n1 C1 A1 M1) (h2 : NN u n2 C2 A2 M2) (h3 : NN u n3 C3 A3 M3)
    {l1 l2 l3 out : List Lb}
    (h : FlEinsum u [(l1, C1), (l2, C2), (l3, C3)] out C) {t : ℕ}
    (ht : einsumTerms [(l1, A1), (l2, A2), (l3, A3)] out = t) :
    NN u (n1 + n2 + n3 + (t + 1)) C (einsum [(l1, A1), (l2, A2), (l3, A3)] out)
      (einsum [(l1, M1), (l2, M2), (l3, M3)] out) := by
  have := NDNear.einsum3 hu (one_le_pow_u hu n1) (one_le_pow_u hu n2) (one_le_pow_u hu n3) h1 h2 h3
    l1 l2 l3 out h
  rw [ht, ← pow_add, ← pow_add, ← pow_add, Nat.add_comm (t + 1), ← Nat.add_assoc n1] at this
  exact this

theorem mm (hu : 0 ≤ u) (h1 : NN u n1 C1 A1 M1) (h2 : NN u n2 C2 A2 M2)
    (h : FlMatmul u C1 C2 C) {t : ℕ} (ht : A1.dim 1 = t) :
    NN u (n1 + n2 + t) C (A1.matmul A2) (M1.matmul M2) := by
  have := NDNear.matmul hu (one_le_pow_u hu n1) (one_le_pow_u hu n2) h1 h2 h
  rw [ht, ← pow_add, ← pow_add, Nat.add_comm t] at this
  exact this

theorem reshape (h : NN u n C A M) (s : List ℕ) : NN u n (C.reshape s) (A.reshape s) (M.reshape s) :=
  NDNear.reshape h s

theorem matT (h : NN u n C A M) : NN u n C.matT A.matT M.matT := NDNear.matT h

theorem cols (h : NN u n C A M) (a b : ℕ) : NN u n (C.cols a b) (A.cols a b) (M.cols a b) :=
  NDNear.cols h a b

/-- merging the first two axes -/
theorem merge (h : NN u n C A M) : NN u n (C.reshape [C.dim 0 * C.dim 1, C.dim 2])
    (A.reshape [A.dim 0 * A.dim 1, A.dim 2]) (M.reshape [M.dim 0 * M.dim 1, M.dim 2]) := by
  have h' : NDNear _ _ _ _ := h
  rw [h'.dim_eq, h'.dim_eq, h'.dim_eq, h'.dim_eq', h'.dim_eq', h'.dim_eq']
  exact h.reshape _

end NN

theorem flScan_near {u : ℝ} {stepF : ℕ → ND ℝ → ND ℝ → ND ℝ → Prop}
    {step stepM : ℕ → ND ℝ → ND ℝ → ND ℝ} (s : ℕ → List ℕ) (N : ℕ → ℕ) :
    ∀ (Cs : List (ND ℝ)) (mu : ℕ) (P' P M : ND ℝ) (out : List (ND ℝ)), P.shape = s mu → NN u (N mu) P' P M →
    (∀ k Q' Q MQ Q'', k < Cs.length → Q.shape = s (mu + k) → NN u (N (mu + k)) Q' Q MQ →
      stepF (mu + k + 1) Q' (Cs.getD k (ND.zeros [])) Q'' →
      NN u (N (mu + k + 1)) Q'' (step (mu + k + 1) Q (Cs.getD k (ND.zeros [])))
        (stepM (mu + k + 1) MQ (Cs.getD k (ND.zeros [])).abs) ∧
      (step (mu + k + 1) Q (Cs.getD k (ND.zeros []))).shape = s (mu + k + 1)) →
    flScan stepF (mu + 1) P' Cs out →
    out.length = Cs.length + 1 ∧ ∀ k < Cs.length + 1, NN u (N (mu + k)) (out.getD k (ND.zeros []))
      ((ttScan step (mu + 1) P Cs).getD k (ND.zeros []))
      ((ttScan stepM (mu + 1) M (Cs.map ND.abs)).getD k (ND.zeros []))
  | [], mu, P', P, M, out, _, h0, _, hf => by
    cases hf
    refine ⟨rfl, fun k hk => ?_⟩
    have : k = 0 := by simpa using hk
    subst this
    simpa [ttScan] using h0
  | C :: Cs, mu, P', P, M, out, hs0, h0, hs, hf => by
    obtain ⟨P1, rest, h1, hf, rfl⟩ := hf
    have k1 := hs 0 P' P M P1 (by simp) hs0 h0 h1
    have := flScan_near s N Cs (mu + 1) P1 (step (mu + 1) P C) (stepM (mu + 1) M C.abs) rest
      (by simpa using k1.2) (by simpa using k1.1)
      (fun k Q' Q MQ Q'' hk hsQ hQ hst => by
        have e : mu + 1 + k = mu + (k + 1) := by omega
        rw [e] at hsQ hQ hst ⊢
        have := hs (k + 1) Q' Q MQ Q'' (by simpa using hk) hsQ hQ hst
        simpa using this) hf
    refine ⟨by simp [this.1], fun k hk => ?_⟩
    cases k with
    | zero => simpa [ttScan] using h0
    | succ k =>
      have h2 := this.2 k (by simpa using hk)
      have e : mu + 1 + k = mu + (k + 1) := by omega
      rw [e] at h2
      simpa [ttScan] using h2

theorem flRun_near {u : ℝ} {firstF : ND ℝ → ND ℝ → Prop} {stepF : ℕ → ND ℝ → ND ℝ → ND ℝ → Prop}
    {first firstM : ND ℝ → ND ℝ} {step stepM : ℕ → ND ℝ → ND ℝ → ND ℝ} (s : ℕ → List ℕ) (N : ℕ → ℕ)
    (cores : List (ND ℝ)) (hne : 0 < cores.length) (out : List (ND ℝ))
    (h0 : ∀ P, firstF (cores.getD 0 (ND.zeros [])) P →
      NN u (N 0) P (first (cores.getD 0 (ND.zeros []))) (firstM (cores.getD 0 (ND.zeros [])).abs) ∧
      (first (cores.getD 0 (ND.zeros []))).shape = s 0)
    (hs : ∀ k Q' Q MQ Q'', k + 1 < cores.length → Q.shape = s k → NN u (N k) Q' Q MQ →
      stepF (k + 1) Q' (cores.getD (k + 1) (ND.zeros [])) Q'' →
      NN u (N (k + 1)) Q'' (step (k + 1) Q (cores.getD (k + 1) (ND.zeros [])))
        (stepM (k + 1) MQ (cores.getD (k + 1) (ND.zeros [])).abs) ∧
      (step (k + 1) Q (cores.getD (k + 1) (ND.zeros []))).shape = s (k + 1))
    (hf : flRun firstF stepF cores out) :
    out.length = cores.length ∧ ∀ k < cores.length, NN u (N k) (out.getD k (ND.zeros []))
      ((ttRun first step cores).getD k (ND.zeros []))
      ((ttRun firstM stepM (cores.map ND.abs)).getD k (ND.zeros [])) := by
  match cores, hne with
  | C :: Cs, _ =>
    obtain ⟨P, hP, hf⟩ := hf
    have h1 := h0 P (by simpa using hP)
    have := flScan_near s N Cs 0 P (first C) (firstM C.abs) out (by simpa using h1.2) (by simpa using h1.1)
      (fun k Q' Q MQ Q'' hk hsQ hQ hst => by
        have := hs k Q' Q MQ Q'' (by simpa using hk) (by simpa using hsQ) (by simpa using hQ)
          (by simpa using hst)
        simpa using this) hf
    refine ⟨by simpa using this.1, fun k hk => ?_⟩
    have h2 := this.2 k (by simpa using hk)
    simpa [ttRun] using h2

/-- total of the step counts -/
def stepSum (f : ℕ → ℕ) (k : ℕ) : ℕ := ((List.range k).map f).sum

theorem stepSum_succ (f : ℕ → ℕ) (k : ℕ) : stepSum f (k + 1) = stepSum f k + f k := by
  simp [stepSum, List.range_succ]

theorem stepSum_one (f : ℕ → ℕ) : stepSum f 1 = f 0 := by simp [stepSum]

theorem takeAxis1_near (C : ND ℝ) (l : List ℕ) {u : ℝ} :
    NN u 0 (C.takeAxis1 l) (C.takeAxis1 l) (C.abs.takeAxis1 l) :=
  NN.of_one ((NDNear.rfl' C).reindex [C.dim 0, l.length, C.dim 2]
    fun i => [i.getD 0 0, l.getD (i.getD 1 0) 0, i.getD 2 0])

theorem Sparse.abs_row (X : Sparse ℝ) (mu : ℕ) : X.abs.row mu = X.row mu := by
  simp [Sparse.abs, Sparse.row]

theorem abs_getD {l : List (ND ℝ)} {k : ℕ} (hk : k < l.length) :
    (l.map ND.abs).getD k (ND.zeros []) = (l.getD k (ND.zeros [])).abs :=
  getD_map_lt _ _ _ hk _ _

variable {u : ℝ} {cores : List (ND ℝ)} {r n : ℕ → ℕ}

theorem flSketchSparse_near (hu : 0 ≤ u) (h : Cores cores r n) (h0 : r 0 = 1) (hne : 0 < cores.length)
    (X : Sparse ℝ) {out : List (ND ℝ)} (hf : flSketchSparse u cores X out) :
    out.length = cores.length ∧ ∀ k < cores.length, NN u (stepSum r (k + 1)) (out.getD k (ND.zeros []))
      ((ttSketchSparse cores X).getD k (ND.zeros []))
      ((ttSketchSparse (cores.map ND.abs) X.abs).getD k (ND.zeros [])) := by
  refine flRun_near (fun k => [X.nnz, r (k + 1)]) (fun k => stepSum r (k + 1)) cores hne out ?_ ?_ hf
  · rintro P rfl
    have hC := h 0 hne
    rw [h0] at hC
    have hs := ND.takeAxis1_shape hC (X.row 0)
    rw [X.row_length] at hs
    refine ⟨?_, by rw [ND.reshape_shape, hs]; rfl⟩
    simp only [Sparse.abs_row]
    exact ((takeAxis1_near _ _).reshape _).mono hu (Nat.zero_le _)
  · intro k Q' Q MQ Q'' hk hsQ hQ hst
    have hC := h (k + 1) hk
    have hs := ND.takeAxis1_shape hC (X.row (k + 1))
    rw [X.row_length] at hs
    refine ⟨?_, ND.es_ijk_ji_jk_shape hs hsQ⟩
    simp only [Sparse.abs_row]
    have := NN.e2 hu (takeAxis1_near _ _) hQ hst (t := r (k + 1))
      (by simp [einsumTerms, lbSummed, lbDim, lbGet?, hs, hsQ, -List.getD_eq_getElem?_getD])
    refine this.mono hu ?_
    rw [stepSum_succ r (k + 1)]; omega

theorem flSketchTT_near (hu : 0 ≤ u) (h : Cores cores r n) (h0 : r 0 = 1) (hne : 0 < cores.length)
    (X : TT ℝ) {x : ℕ → ℕ} (hX : Cores X.cores x n) (hx0 : x 0 = 1) (hd : cores.length ≤ X.cores.length)
    {out : List (ND ℝ)} (hf : flSketchTT u cores X out) :
    out.length = cores.length ∧ ∀ k < cores.length,
      NN u (stepSum (fun j => x j * r j * n j + 1) (k + 1)) (out.getD k (ND.zeros []))
      ((ttSketchTT cores X).getD k (ND.zeros []))
      ((ttSketchTT (cores.map ND.abs) X.abs).getD k (ND.zeros [])) := by
  refine flRun_near (fun k => [x (k + 1), r (k + 1)])
    (fun k => stepSum (fun j => x j * r j * n j + 1) (k + 1)) cores hne out ?_ ?_ hf
  · intro P hP
    have hC := h 0 hne
    have hXC := hX 0 (by omega)
    refine ⟨?_, ND.es_ijk_ijl_kl_shape hXC hC⟩
    rw [show X.abs.cores = X.cores.map ND.abs from rfl, abs_getD (by omega)]
    have := NN.e2 hu (NN.rfl' _) (NN.rfl' _) hP (t := n 0)
      (by simp [einsumTerms, lbSummed, lbDim, lbGet?, hXC, hC, hx0, -List.getD_eq_getElem?_getD])
    refine this.mono hu ?_
    rw [stepSum_one, h0, hx0]; omega
  · intro k Q' Q MQ Q'' hk hsQ hQ hst
    have hC := h (k + 1) hk
    have hXC := hX (k + 1) (by omega)
    refine ⟨?_, ND.es_ij_ikl_jkm_lm_shape hsQ hXC hC⟩
    rw [show X.abs.cores = X.cores.map ND.abs from rfl, abs_getD (by omega)]
    have := NN.e3 hu hQ (NN.rfl' _) (NN.rfl' _) hst (t := x (k + 1) * r (k + 1) * n (k + 1))
      (by simp [einsumTerms, lbSummed, lbDim, lbGet?, hXC, hC, hsQ, mul_assoc, -List.getD_eq_getElem?_getD])
    refine this.mono hu ?_
    rw [stepSum_succ _ (k + 1)]; omega

theorem flSketchCP_near (hu : 0 ≤ u) (h : Cores cores r n) (h0 : r 0 = 1) (hne : 0 < cores.length)
    (X : CP ℝ) {R : ℕ} (hX : ∀ k < X.cores.length, (X.cores.getD k (ND.zeros [])).shape = [n k, R])
    (hd : cores.length ≤ X.cores.length)
    {out : List (ND ℝ)} (hf : flSketchCP u cores X out) :
    out.length = cores.length ∧ ∀ k < cores.length,
      NN u (stepSum (fun j => r j * n j + 1) (k + 1)) (out.getD k (ND.zeros []))
      ((ttSketchCP cores X).getD k (ND.zeros []))
      ((ttSketchCP (cores.map ND.abs) X.abs).getD k (ND.zeros [])) := by
  refine flRun_near (fun k => [R, r (k + 1)])
    (fun k => stepSum (fun j => r j * n j + 1) (k + 1)) cores hne out ?_ ?_ hf
  · intro P hP
    have hC := h 0 hne
    have hXC := hX 0 (by omega)
    refine ⟨?_, ND.es_ij_lik_jk_shape hXC hC⟩
    rw [show X.abs.cores = X.cores.map ND.abs from rfl, abs_getD (by omega)]
    have := NN.e2 hu (NN.rfl' _) (NN.rfl' _) hP (t := n 0)
      (by simp [einsumTerms, lbSummed, lbDim, lbGet?, hXC, hC, h0, -List.getD_eq_getElem?_getD])
    refine this.mono hu ?_
    rw [stepSum_one, h0]; omega
  · intro k Q' Q MQ Q'' hk hsQ hQ hst
    have hC := h (k + 1) hk
    have hXC := hX (k + 1) (by omega)
    refine ⟨?_, ND.es_ij_ki_jkl_il_shape hsQ hXC hC⟩
    rw [show X.abs.cores = X.cores.map ND.abs from rfl, abs_getD (by omega)]
    have := NN.e3 hu hQ (NN.rfl' _) (NN.rfl' _) hst (t := r (k + 1) * n (k + 1))
      (by simp [einsumTerms, lbSummed, lbDim, lbGet?, hXC, hC, hsQ, -List.getD_eq_getElem?_getD])
    refine this.mono hu ?_
    rw [stepSum_succ _ (k + 1)]; omega

theorem flSketchDense_near (hu : 0 ≤ u) (h : Cores cores r n) (h0 : r 0 = 1) (hne : 0 < cores.length)
    {out : List (ND ℝ)} (hf : flSketchDense u cores out) :
    out.length = cores.length ∧ ∀ k < cores.length,
      NN u (stepSum r (k + 1)) (out.getD k (ND.zeros []))
      ((ttSketchDense cores).getD k (ND.zeros []))
      ((ttSketchDense (cores.map ND.abs)).getD k (ND.zeros [])) := by
  refine flRun_near (fun k => [((List.range (k + 1)).map n).prod, r (k + 1)])
    (fun k => stepSum r (k + 1)) cores hne out ?_ ?_ hf
  · rintro P rfl
    have hC := h 0 hne
    rw [h0] at hC
    refine ⟨((NN.rfl' _).merge).mono hu (Nat.zero_le _), ?_⟩
    rw [ND.reshape_shape, (dim_of_shape3 hC).1, (dim_of_shape3 hC).2.1, (dim_of_shape3 hC).2.2]; simp
  · rintro k Q' Q MQ Q'' hk hsQ hQ ⟨N, hN, rfl⟩
    have hC := h (k + 1) hk
    have hE := ND.es_ij_jkl_ikl_shape hsQ hC
    obtain ⟨e0, e1, e2⟩ := dim_of_shape3 hE
    have := NN.e2 hu hQ (NN.rfl' _) hN (t := r (k + 1))
      (by simp [einsumTerms, lbSummed, lbDim, lbGet?, hC, hsQ, -List.getD_eq_getElem?_getD])
    refine ⟨this.merge.mono hu ?_, ?_⟩
    · rw [stepSum_succ _ (k + 1)]; omega
    · simp only [ND.reshape_shape]
      rw [e0, e1, e2, List.range_succ (n := k + 1), List.map_append, List.prod_append]; simp

theorem flSketchTucker_near (hu : 0 ≤ u) {s : ℕ → ℕ} (h : Cores cores r n) (h0 : r 0 = 1)
    (hne : 0 < cores.length) (X : Tucker ℝ)
    (hX : ∀ k < X.factors.length, (X.factors.getD k (ND.zeros [])).shape = [s k, n k])
    (hd : cores.length ≤ X.factors.length) (hs0 : X.rank.getD 0 0 = s 0)
    {out : List (ND ℝ)} (hf : flSketchTucker u cores (r 1) X out) :
    out.length = cores.length ∧ ∀ k < cores.length,
      NN u (stepSum (fun j => n j + r j) (k + 1)) (out.getD k (ND.zeros []))
      ((ttSketchTucker cores (r 1) X).getD k (ND.zeros []))
      ((ttSketchTucker (cores.map ND.abs) (r 1) X.abs).getD k (ND.zeros [])) := by
  refine flRun_near (fun k => [((List.range (k + 1)).map s).prod, r (k + 1)])
    (fun k => stepSum (fun j => n j + r j) (k + 1)) cores hne out ?_ ?_ hf
  · rintro P ⟨N, hN, rfl⟩
    have hC := h 0 hne
    have hXC := hX 0 (by omega)
    have hM := ND.matT_shape hXC
    refine ⟨?_, by rw [ND.reshape_shape, hs0]; simp⟩
    rw [show X.abs.factors = X.factors.map ND.abs from rfl, abs_getD (by omega), Tucker.abs_rank]
    have := NN.e2 hu (NN.rfl' _) ((NN.rfl' _).matT) hN (t := n 0)
      (by simp [einsumTerms, lbSummed, lbDim, lbGet?, hM, hC, -List.getD_eq_getElem?_getD])
    refine (this.reshape _).mono hu ?_
    rw [stepSum_one]; omega
  · rintro k Q' Q MQ Q'' hk hsQ hQ ⟨cr, N, hcr, hN, rfl⟩
    have hC := h (k + 1) hk
    have hXC := hX (k + 1) (by omega)
    have hM := ND.matT_shape hXC
    have hE := ND.es_jkl_km_jml_shape hC hM
    have hN' := ND.es_ij_jml_iml_shape hsQ hE
    obtain ⟨e0, e1, e2⟩ := dim_of_shape3 hN'
    rw [show X.abs.factors = X.factors.map ND.abs from rfl, abs_getD (by omega)]
    have k1 := NN.e2 hu (NN.rfl' _) ((NN.rfl' _).matT) hcr (t := n (k + 1))
      (by simp [einsumTerms, lbSummed, lbDim, lbGet?, hM, hC, -List.getD_eq_getElem?_getD])
    have hE' : (einsum [([Lb.j, Lb.k, Lb.l], cores.getD (k + 1) (ND.zeros [])),
      ([Lb.k, Lb.m], (X.factors.getD (k + 1) (ND.zeros [])).matT)] [Lb.j, Lb.m, Lb.l]).shape = _ := hE
    have k2 := NN.e2 hu hQ k1 hN (t := r (k + 1))
      (by
        simp only [einsumTerms, List.map_cons, List.map_nil, hE', hsQ]
        simp [lbSummed, lbDim, lbGet?])
    refine ⟨k2.merge.mono hu ?_, ?_⟩
    · rw [stepSum_succ _ (k + 1)]; omega
    · simp only [ND.reshape_shape]
      rw [e0, e1, e2, List.range_succ (n := k + 1), List.map_append, List.prod_append]; simp

end TTS
