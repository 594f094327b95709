import Verif.Proofs.FloatHmt
import Verif.Proofs.ApproxOrthSketch
import Verif.Proofs.FloatGeneral

/-! The method `orthogonal` in floating point arithmetic. -/

namespace TTS

open Finset TTS.Props

/-- one Omega matrix of the floating point sketch -/
theorem flOmega_near {u : ℝ} (hu : 0 ≤ u) {env : Env ℝ} {l r : DRM ℝ} {X : Tensor ℝ} (hl : l.AcceptsT X)
    (hr : r.AcceptsT X) (hlt : l.transpose = false) (hrt : r.transpose = true) {lc rc : List (List (ND ℝ))}
    (hlc : l.FlContr u env X lc) (hrc : r.FlContr u env X rc) {mu : ℕ} (hmu : mu < X.shape.length - 1) {P : ND ℝ}
    (hP : FlOmegaT u X mu [l.rank.getD mu 0, r.rank.reverse.getD mu 0] (pick lc mu) (pick rc mu) P) :
    NN u (X.omegaTotal l r mu) P ((contSum env l r X.shape X.summands).omega.getD mu (ND.zeros []))
        ((absSum env l r X.shape X.summands).omega.getD mu (ND.zeros [])) := by
  have hsh : ∀ t ∈ X.summands, t.shape = X.shape := fun t ht => by
    rw [(hl.each t ht).shape, ← hl.shape]
  have e1 : ((contSum env l r X.shape X.summands).omega.getD mu (ND.zeros []))
    = ND.ofFn [l.rank.getD mu 0, r.rank.reverse.getD mu 0]
        fun i => (X.summands.map fun t => (oSk env l r t mu).get i).sum := by
    unfold contSum contOf
    rw [getD_map_range _ _ _ _ hmu]
  have e2 : ((absSum env l r X.shape X.summands).omega.getD mu (ND.zeros []))
    = ND.ofFn [l.rank.getD mu 0, r.rank.reverse.getD mu 0]
        fun i => (X.summands.map fun t => (aO env l r t mu).get i).sum := by
    unfold absSum contOf
    rw [getD_map_range _ _ _ _ hmu]
  rw [e1, e2]
  have near : ∀ t ∈ X.summands, ∀ lt rt P, l.FlSketch u env t lt → r.FlSketch u env t rt →
      FlOmegaLeaf u t mu (lt.getD mu (ND.zeros [])) (rt.getD mu (ND.zeros [])) P →
      NN u (t.omegaTotal l r mu) P (oSk env l r t mu) (aO env l r t mu) ∧
      (oSk env l r t mu).shape = [l.rank.getD mu 0, r.rank.reverse.getD mu 0] := by
    intro t ht lt rt P k1 k2 k3
    have hs := hsh t ht
    refine ⟨leaf_omega_near hu (hl.each t ht) (hr.each t ht) hlt hrt k1 k2 (by rw [hs]; exact hmu) k3, ?_⟩
    exact (parts_sk (env := env) (hl.each t ht) (hr.each t ht) hlt hrt).2.1 mu (by rw [hs]; exact hmu)
  unfold pick at hP
  cases X with
  | leaf X =>
    obtain ⟨lt, _, k1, kn, rfl⟩ := List.forall₂_cons_left_iff.1 hlc
    obtain ⟨rt, _, k2, kn', rfl⟩ := List.forall₂_cons_left_iff.1 hrc
    obtain ⟨q1, q2⟩ := near X (by simp [Tensor.summands]) lt rt P k1 k2 hP
    exact q1.one_sum q2
  | sum X =>
    have hfold : flFold (fun om (t : Leaf ℝ × ND ℝ × ND ℝ) om' =>
      ∃ P, FlOmegaLeaf u t.1 mu t.2.1 t.2.2 P ∧ om.shape = P.shape ∧ FlAdd u om P om')
      (ND.zeros [l.rank.getD mu 0, r.rank.reverse.getD mu 0])
      (X.tensors.zip ((lc.map fun lt => lt.getD mu (ND.zeros [])).zip
        (rc.map fun lt => lt.getD mu (ND.zeros [])))) P := hP
    have := fold_near hu _ (N := (X.tensors.map fun t => t.omegaTotal l r mu).foldr max 0) (k := 0)
      (g := fun t => oSk env l r t.1 mu) (h := fun t => aO env l r t.1 mu) ?_
      (NDNear.zeros _ (one_le_pow_u hu _)) hfold
    · obtain ⟨z1, z2⟩ := zip_foldl hlc hrc (fun lt => lt.getD mu (ND.zeros [])) (fun lt => lt.getD mu (ND.zeros []))
        (fun (s : ND ℝ) t => s.add (oSk env l r t mu)) (ND.zeros [l.rank.getD mu 0, r.rank.reverse.getD mu 0])
      obtain ⟨z3, _⟩ := zip_foldl hlc hrc (fun lt => lt.getD mu (ND.zeros [])) (fun lt => lt.getD mu (ND.zeros []))
        (fun (s : ND ℝ) t => s.add (aO env l r t mu)) (ND.zeros [l.rank.getD mu 0, r.rank.reverse.getD mu 0])
      simp only [Tensor.summands] at z1 z2 z3
      rw [z1, z2, z3] at this
      rw [foldl_add_eq _ _ _ ?_, foldl_add_eq _ _ _ ?_] at this
      · exact this
      · intro t ht
        have hs := hsh t ht
        exact (abs_shapes env (hl.each t ht) (hr.each t ht) hlt hrt).1 mu (by rw [hs]; exact hmu)
      · intro t ht
        have hs := hsh t ht
        exact (parts_sk (env := env) (hl.each t ht) (hr.each t ht) hlt hrt).2.1 mu (by rw [hs]; exact hmu)
    · intro x hx P hP
      obtain ⟨b, c, hm, k1, k2, e⟩ := zip_mem hlc hrc _ _ hx
      rw [e] at hP
      refine ((near x.1 hm b c P k1 k2 hP).1).mono hu ?_
      exact le_foldr_max (List.mem_map_of_mem (f := fun t => Leaf.omegaTotal l r t mu) hm)

/-- The residual of a bond, in terms of the tensor, with errors. -/
theorem bond_resid_fl {sh : List ℕ} {f : List ℕ → ℝ} {R : Mats ℝ} {cs cs' : List (ND ℝ)} {rk n : ℕ → ℕ} {ε η κ : ℝ}
    (hε : 0 ≤ ε) (hη : 0 ≤ η) (h : Cores cs rk n) (h' : Cores cs' rk n)
    (h0 : rk 0 = 1) {mu : ℕ} (h1 : mu ≤ cs.length) (h2 : mu ≤ cs'.length) (h3 : mu < sh.length)
    (hn : ∀ k, n k = sh.getD k 0)
    (hp : ∀ k < mu, Partner ε (cs.getD k (ND.zeros [])) (cs'.getD k (ND.zeros []))) {l r : ℕ}
    {C P O : ND ℝ} (hP : P.shape = [rk mu, n mu, r]) (hO : O.shape = [l, r])
    (hg : ∀ a < rk mu, ∀ j < n mu, ∀ b < r, P.get [a, j, b] = psiSpec sh f (coreMats cs) R mu a j b)
    (hres : ∀ Z : ND ℝ, Z.shape = [rk mu, n mu, l] → frobD (ND.es_ijk_kl_ijl C O) P
      ≤ frobD (ND.es_ijk_kl_ijl Z O) P + η * (frobN C + frobN Z) + 2 * ε * frobN P + κ)
    (H : List ℕ → ℕ → ℝ) :
    frobD (ND.es_ijk_kl_ijl C O) P ≤ (1 + ε) ^ mu * (√ (sumIdx (sh.take (mu + 1)) fun p => ∑ b ∈ range r,
          (pcR sh f R (mu + 1) p b - ∑ c ∈ range l, H p c * O.get [c, b]) ^ 2)
        + η * √ (sumIdx (sh.take (mu + 1)) fun p => ∑ c ∈ range l, H p c ^ 2)
        + 2 * ε * √ (sumIdx (sh.take (mu + 1)) fun p => ∑ b ∈ range r, pcR sh f R (mu + 1) p b ^ 2))
      + η * frobN C + κ := by
  let Z : ND ℝ := ND.ofFn [rk mu, n mu, l] fun i => sumIdx (sh.take mu) fun p =>
    coreMats cs mu p (i.getD 0 0) * H (p ++ [i.getD 1 0]) (i.getD 2 0)
  have hZ : Z.shape = [rk mu, n mu, l] := rfl
  have Zg : ∀ a < rk mu, ∀ j < n mu, ∀ c < l,
      Z.get [a, j, c] = sumIdx (sh.take mu) fun p => coreMats cs mu p a * H (p ++ [j]) c := by
    intro a ha j hj c hc
    rw [ND.ofFn_get (s := [rk mu, n mu, l]) (i := [a, j, c]) ⟨ha, hj, hc, trivial⟩]
    rfl
  let T : List ℕ → ℕ → ℝ := fun p b => pcR sh f R (mu + 1) p b - ∑ c ∈ range l, H p c * O.get [c, b]
  let D : ND ℝ := ND.ofFn [rk mu, n mu, r] fun i => sumIdx (sh.take mu) fun p =>
    coreMats cs mu p (i.getD 0 0) * T (p ++ [i.getD 1 0]) (i.getD 2 0)
  have Dg : ∀ a < rk mu, ∀ j < n mu, ∀ b < r,
      D.get [a, j, b] = sumIdx (sh.take mu) fun p => coreMats cs mu p a * T (p ++ [j]) b := by
    intro a ha j hj c hc
    rw [ND.ofFn_get (s := [rk mu, n mu, r]) (i := [a, j, c]) ⟨ha, hj, hc, trivial⟩]
    rfl
  have k1 := front_norm hε h h' h0 h1 h2 h3 hn hp l H hZ Zg
  have k2 := front_norm hε h h' h0 h1 h2 h3 hn hp r T (P := D) rfl Dg
  have k3 := psi_norm (R := R) hε h h' h0 h1 h2 h3 hn hp r hP hg
  have k4 : frobD (ND.es_ijk_kl_ijl Z O) P = frobN D := by
    rw [frobD_eq3 (ND.es_ijk_kl_ijl_shape hZ hO), frobN_eq3 (A := D) rfl]
    congr 1
    refine sum_congr rfl fun a ha => sum_congr rfl fun j hj => sum_congr rfl fun b hb => ?_
    have ha : a < rk mu := by simpa using ha
    have hj : j < n mu := by simpa using hj
    have hb : b < r := by simpa using hb
    rw [ND.es_ijk_kl_ijl_get hZ hO, Dg a ha j hj b hb, hg a ha j hj b hb, psiSpec_right]
    have : ∀ c ∈ range l, Z.get [a, j, c] * O.get [c, b]
        = sumIdx (sh.take mu) fun p => coreMats cs mu p a * H (p ++ [j]) c * O.get [c, b] := by
      intro c hc
      rw [Zg a ha j hj c (by simpa using hc), sumIdx_mul]
    rw [sum_congr rfl this, ← sumIdx_sum, sub_sq_comm, ← sumIdx_sub]
    congr 1
    refine sumIdx_congr fun p _ => ?_
    show _ = coreMats cs mu p a * (pcR sh f R (mu + 1) (p ++ [j]) b - ∑ c ∈ range l, H (p ++ [j]) c * O.get [c, b])
    rw [mul_sub, mul_sum]
    congr 1
    exact sum_congr rfl fun c _ => mul_assoc _ _ _
  have k5 := hres Z hZ
  rw [k4] at k5
  have c1 := mul_le_mul_of_nonneg_left k1 hη
  have c3 := mul_le_mul_of_nonneg_left k3 hε
  have e : (1 + ε) ^ mu * (√ (sumIdx (sh.take (mu + 1)) fun p => ∑ b ∈ range r,
          (pcR sh f R (mu + 1) p b - ∑ c ∈ range l, H p c * O.get [c, b]) ^ 2)
        + η * √ (sumIdx (sh.take (mu + 1)) fun p => ∑ c ∈ range l, H p c ^ 2)
        + 2 * ε * √ (sumIdx (sh.take (mu + 1)) fun p => ∑ b ∈ range r, pcR sh f R (mu + 1) p b ^ 2))
      = (1 + ε) ^ mu * √ (sumIdx (sh.take (mu + 1)) fun p => ∑ b ∈ range r, T p b ^ 2)
        + η * ((1 + ε) ^ mu * √ (sumIdx (sh.take (mu + 1)) fun p => ∑ c ∈ range l, H p c ^ 2))
        + 2 * (ε * ((1 + ε) ^ mu * √ (sumIdx (sh.take (mu + 1)) fun p => ∑ b ∈ range r, pcR sh f R (mu + 1) p b ^ 2))) := by
    ring
  rw [e]
  linarith


theorem core_norm_arith_fl {c w p g η κ ε : ℝ} (hg : 0 ≤ g) (h1 : c ≤ w * g)
    (h2 : w ≤ (p + η * c + 2 * ε * p + 2 * (1 + ε) * κ) + p) (h3 : g * η ≤ 1 / 2) (hc : 0 ≤ c) :
    c ≤ 4 * (1 + ε) * g * (p + κ) := by
  have h4 := mul_le_mul_of_nonneg_right h2 hg
  have h5 := mul_le_mul_of_nonneg_right h3 hc
  nlinarith

/-- A right inverse bounds the solution of a least squares problem with errors. -/
theorem solve_norm_fl {ε η κ : ℝ} {C P O G : ND ℝ} {a n l r : ℕ} (hC : C.shape = [a, n, l]) (hO : O.shape = [l, r])
    (hP : P.shape = [a, n, r]) (hG : G.shape = [r, l])
    (hinv : ∀ a < l, ∀ c < l, ∑ b ∈ range r, O.get [a, b] * G.get [b, c] = if a = c then 1 else 0)
    (hsmall : frobN G * η ≤ 1 / 2)
    (h5 : ∀ Z : ND ℝ, Z.shape = [a, n, l] → frobD (ND.es_ijk_kl_ijl C O) P
      ≤ frobD (ND.es_ijk_kl_ijl Z O) P + η * (frobN C + frobN Z) + 2 * ε * frobN P + 2 * (1 + ε) * κ) :
    frobN C ≤ 4 * (1 + ε) * frobN G * (frobN P + κ) := by
  have h5 := h5 (ND.zeros _) rfl
  have hW := ND.es_ijk_kl_ijl_shape hC hO
  have hz : (ND.zeros [a, n, l] : ND ℝ).shape = _ := rfl
  have e1 : frobD (ND.es_ijk_kl_ijl (ND.zeros [a, n, l]) O) P = frobN P := by
    rw [frobD_eq3 (ND.es_ijk_kl_ijl_shape hz hO), frobN_eq3 hP]
    congr 1
    refine sum_congr rfl fun x _ => sum_congr rfl fun j _ => sum_congr rfl fun c _ => ?_
    rw [ND.es_ijk_kl_ijl_get hz hO, sum_eq_zero fun b _ => by rw [ND.zeros_get, zero_mul]]
    ring
  have e2 : frobN (ND.zeros [a, n, l]) = 0 := frobN_zeros _
  rw [e1, e2, add_zero] at h5
  have h6 := frobN_le (A := P) (B := ND.es_ijk_kl_ijl C O) (by rw [hW, hP])
  rw [frobD_symm (A := P) (by rw [hW, hP])] at h6
  refine core_norm_arith_fl (frobN_nonneg G) (es_right_norm hW hG hC fun x _ j _ c hc => ?_) (h6.trans (by linarith)) hsmall
    (frobN_nonneg C)
  rw [ND.es_ijk_kl_ijl_get hW hG]
  have : ∀ b ∈ range (r), (ND.es_ijk_kl_ijl C O).get [x, j, b] * G.get [b, c]
      = ∑ a ∈ range (l), C.get [x, j, a] * (O.get [a, b] * G.get [b, c]) := by
    intro b _
    rw [ND.es_ijk_kl_ijl_get hC hO, sum_mul]
    exact sum_congr rfl fun _ _ => mul_assoc _ _ _
  rw [sum_congr rfl this, sum_comm]
  have : ∀ a ∈ range (l), ∑ b ∈ range (r), C.get [x, j, a] * (O.get [a, b] * G.get [b, c])
      = if a = c then C.get [x, j, a] else 0 := by
    intro a ha
    rw [← mul_sum, hinv a (by simpa using ha) c hc]
    split <;> simp
  rw [sum_congr rfl this, sum_ite_eq' (range (l)) c, if_pos (by simpa using hc)]

/-- The residual of a solve whose data have errors, with respect to the exact data. -/
theorem solve_fl {env : Env ℝ} {ε eO eP : ℝ} (hε : 0 ≤ ε) (hE : LstsqApproxContract env ε) {P0 O0 P O : ND ℝ} {a n r l : ℕ}
    (hP0 : P0.shape = [a, n, r]) (hO0 : O0.shape = [l, r]) (hP : P.shape = [a, n, r]) (hO : O.shape = [l, r])
    (dP : frobD P0 P ≤ eP) (dO : frobD O0 O ≤ eO) :
    (solution env P0 O0).shape = [a, n, l] ∧ ∀ Z : ND ℝ, Z.shape = [a, n, l] →
      frobD (ND.es_ijk_kl_ijl (solution env P0 O0) O) P ≤ frobD (ND.es_ijk_kl_ijl Z O) P
        + (ε * frobN O + (1 + ε) * eO) * (frobN (solution env P0 O0) + frobN Z) + 2 * ε * frobN P + 2 * (1 + ε) * eP := by
  obtain ⟨s1, -, s3⟩ := orthStep_solution hE.lstsqShape hP0 hO0
  obtain ⟨C, c1, c2, c3⟩ := rightCore_approx hε hE hP0 hO0
  have hM := rightMulPinv_shape hE.lstsqShape (P := P0.reshape [a * n, r]) (m := a * n) rfl hO0
  rw [reshape?_ok hM (by simp [mul_assoc])] at c1
  injection c1 with c1
  rw [← s3] at c1
  subst c1
  refine ⟨s1, fun Z hZ => ?_⟩
  have h1 := right_resid c2 hZ hO hO0 hP hP0 (c3 Z hZ)
  have n1 := frobN_le (A := O) (B := O0) (by rw [hO, hO0])
  have n2 := frobN_le (A := P) (B := P0) (by rw [hP, hP0])
  have d1 : frobD O O0 ≤ eO := by rw [frobD_symm (A := O) (by rw [hO, hO0])]; exact dO
  have d2 : frobD P P0 ≤ eP := by rw [frobD_symm (A := P) (by rw [hP, hP0])]; exact dP
  rw [frobD_symm (A := O) (by rw [hO, hO0])] at n1
  rw [frobD_symm (A := P) (by rw [hP, hP0])] at n2
  have c0 := frobN_nonneg (solution env P0 O0)
  have z0 := frobN_nonneg Z
  unfold solveErr at h1
  have a1 : frobD O O0 + ε * frobN O0 ≤ ε * frobN O + (1 + ε) * eO := by
    have := mul_le_mul_of_nonneg_left (n1.trans (add_le_add_right dO (frobN O))) hε
    linarith
  have a2 : frobD P P0 + ε * frobN P0 ≤ ε * frobN P + (1 + ε) * eP := by
    have := mul_le_mul_of_nonneg_left (n2.trans (add_le_add_right dP (frobN P))) hε
    linarith
  have a3 := mul_le_mul_of_nonneg_left a1 (add_nonneg c0 z0)
  linarith

/-- The whole run, with errors `eO` in the Omega matrices and `eP` in the Psi cores. -/
theorem orth_sketch_approx_fl {env : Env ℝ} {ε : ℝ} (hε : 0 ≤ ε) (hQ : QRApproxContract env ε)
    (hE : LstsqApproxContract env ε) {A : ND ℝ} {L R : Mats ℝ} {lr rr : List ℕ} {Y : TT ℝ} {om : List (ND ℝ)} (eO eP : ℕ → ℝ)
    (hO0 : ∀ mu, 0 ≤ eO mu) (hP0 : ∀ mu, 0 ≤ eP mu) (hlen : Y.cores.length = A.shape.length)
    (hC : Cores Y.cores (fun k => (1 :: lr ++ [1]).getD k 0) fun k => A.shape.getD k 0)
    (homs : ∀ mu < A.shape.length - 1, (core om mu).shape = [lr.getD mu 0, rr.getD mu 0] ∧
      frobD (core om mu) (core (sketchOf A.shape A.get L R lr rr).omega mu) ≤ eO mu)
    (hstep : ∀ mu < A.shape.length - 1, ∃ P, P.shape = (psiOf A.shape A.get R lr rr Y.cores mu).shape ∧
      frobD P (psiOf A.shape A.get R lr rr Y.cores mu) ≤ eP mu ∧
      orthStep env P (some (core om mu)) = .ok (core Y.cores mu))
    (hlast : frobD (Y.cores.getD (A.shape.length - 1) (ND.zeros []))
      (psiOf A.shape A.get R lr rr Y.cores (A.shape.length - 1)) ≤ eP (A.shape.length - 1))
    (hd : 2 ≤ A.shape.length) (hl : lr.length = A.shape.length - 1) (hr : rr.length = A.shape.length - 1)
    (hR : ∀ b, R A.shape.length [] b = 1) (p1 : ∀ n ∈ A.shape, 0 < n) (p2 : ∀ r ∈ lr, 0 < r) :
    (∀ mu < A.shape.length - 1, ∃ C', Partner ε (Y.cores.getD mu (ND.zeros [])) C') ∧
    ∃ S : ℕ → ND ℝ, (∀ mu < A.shape.length - 1, orthStep env (S mu) none = .ok (core Y.cores mu) ∧
      ∃ P, frobD P (psiOf A.shape A.get R lr rr Y.cores mu) ≤ eP mu ∧ S mu = solution env P (core om mu)) ∧
    (∀ (B : ℕ → ℕ → List ℕ → ℝ) (H : ℕ → List ℕ → ℕ → ℝ), frobD A Y.toNumpy
      ≤ orthFloatBound ε A L R lr rr eO eP B H fun mu => frobN (S mu)) ∧
    ∀ mu < A.shape.length - 1, ∀ G : ND ℝ, G.shape = [rr.getD mu 0, lr.getD mu 0] →
      (∀ a < lr.getD mu 0, ∀ c < lr.getD mu 0, ∑ b ∈ range (rr.getD mu 0), midSketch A L R (mu + 1) a b * G.get [b, c]
        = if a = c then 1 else 0) →
      frobN G * (ε * midNorm A L R (mu + 1) (lr.getD mu 0) (rr.getD mu 0) + (1 + ε) * eO mu) ≤ 1 / 2 →
      frobN (S mu) ≤ 4 * (1 + ε) * frobN G
        * ((1 + ε) ^ (A.shape.length - 1) * sketchedNorm A R (mu + 1) (rr.getD mu 0) + eP mu) := by
  obtain ⟨N, hN⟩ : ∃ N, N = A.shape.length - 1 := ⟨_, rfl⟩
  have hom := (sketchOf_hasShape A.shape A.get L R lr rr).omega
  rw [← hN] at hom homs hstep hlast ⊢
  have hPs : ∀ mu < N, (psiOf A.shape A.get R lr rr Y.cores mu).shape
      = [(1 :: lr).getD mu 0, A.shape.getD mu 0, rr.getD mu 0] := by
    intro mu hmu
    have hP := psiOf_shape A.shape A.get R lr rr Y.cores mu
    rwa [List.getD_append _ _ _ _ (by omega)] at hP
  have hOg : ∀ mu < N, ∀ c < lr.getD mu 0, ∀ b < rr.getD mu 0,
      ((sketchOf A.shape A.get L R lr rr).omega.getD mu (ND.zeros [])).get [c, b] = midSketch A L R (mu + 1) c b := by
    intro mu hmu c hc b hb
    rw [sketchOf_omega_get (by omega) hc hb, omegaSpec_right]
    rfl
  have hOn : ∀ mu < N, frobN ((sketchOf A.shape A.get L R lr rr).omega.getD mu (ND.zeros []))
      = midNorm A L R (mu + 1) (lr.getD mu 0) (rr.getD mu 0) := by
    intro mu hmu
    rw [← Real.sqrt_sq (frobN_nonneg _), frobN_mat (hom mu hmu)]
    unfold midNorm
    congr 1
    exact sum_congr rfl fun c hc => sum_congr rfl fun b hb => by
      rw [hOg mu hmu c (by simpa using hc) b (by simpa using hb)]
  -- partners
  have key : ∀ mu, ∃ (S Q' C' : ND ℝ) (y : ℕ → ℕ → ℝ), mu < N →
      S.shape = [(1 :: lr).getD mu 0, A.shape.getD mu 0, lr.getD mu 0] ∧
      (∀ Z : ND ℝ, Z.shape = [(1 :: lr).getD mu 0, A.shape.getD mu 0, lr.getD mu 0] →
        frobD (ND.es_ijk_kl_ijl S
            ((sketchOf A.shape A.get L R lr rr).omega.getD mu (ND.zeros []))) (psiOf A.shape A.get R lr rr Y.cores mu)
          ≤ frobD (ND.es_ijk_kl_ijl Z ((sketchOf A.shape A.get L R lr rr).omega.getD mu (ND.zeros [])))
              (psiOf A.shape A.get R lr rr Y.cores mu)
            + (ε * frobN ((sketchOf A.shape A.get L R lr rr).omega.getD mu (ND.zeros [])) + (1 + ε) * eO mu)
              * (frobN S + frobN Z)
            + 2 * ε * frobN (psiOf A.shape A.get R lr rr Y.cores mu) + 2 * (1 + ε) * eP mu) ∧
      Partner ε (Y.cores.getD mu (ND.zeros [])) Q' ∧
      frobD S C' ≤ ε * frobN S ∧
      (∀ i < (1 :: lr).getD mu 0, ∀ j < A.shape.getD mu 0, ∀ b < lr.getD mu 0,
        ∑ t ∈ range (lr.getD mu 0), Q'.get [i, j, t] * y t b = C'.get [i, j, b]) ∧
      orthStep env S none = .ok (core Y.cores mu) ∧
      ∃ P, frobD P (psiOf A.shape A.get R lr rr Y.cores mu) ≤ eP mu ∧ S = solution env P (core om mu) := by
    intro mu
    by_cases hmu : mu < N
    · obtain ⟨P, m1, m2, m3⟩ := hstep mu hmu
      obtain ⟨o1, o2⟩ := homs mu hmu
      have hPm := m1.trans (hPs mu hmu)
      obtain ⟨-, s2, -⟩ := orthStep_solution hE.lstsqShape hPm o1
      obtain ⟨c2, c3⟩ := solve_fl hε hE hPm o1 (hPs mu hmu) (hom mu hmu) m2 o2
      rw [s2] at m3
      obtain ⟨Q', C', y, q1, q2, q3⟩ := orthStep_approx hQ c2 (positive_fit p1 p2 hl mu (by omega)) m3
      exact ⟨solution env P (core om mu), Q', C', y, fun _ => ⟨c2, c3, q1, q2, q3, m3, P, m2, rfl⟩⟩
    · exact ⟨ND.zeros [], ND.zeros [], ND.zeros [], fun _ _ => 0, fun h => absurd h hmu⟩
  choose S Q' C' y hq using key
  have hrk : ∀ mu < N, (1 :: lr ++ [1]).getD mu 0 = (1 :: lr).getD mu 0 := fun mu hmu => aug_left (by omega)
  have hrk' : ∀ mu < N, (1 :: lr ++ [1]).getD (mu + 1) 0 = lr.getD mu 0 := fun mu hmu => aug_right (by omega)
  have hpw : ∀ mu ≤ N, (1 + ε) ^ mu ≤ (1 + ε) ^ N := fun mu hmu => pow_le_pow_right₀ (by linarith) hmu
  have hpg : ∀ mu < N, ∀ a < (1 :: lr ++ [1]).getD mu 0, ∀ j < A.shape.getD mu 0, ∀ b < rr.getD mu 0,
      (psiOf A.shape A.get R lr rr Y.cores mu).get [a, j, b] = psiSpec A.shape A.get (coreMats Y.cores) R mu a j b :=
    fun mu hmu a ha j hj b hb => psiOf_get (by omega) (by rw [← hrk mu hmu]; exact ha) hj hb
  have hrkN : (1 :: lr ++ [1]).getD N 0 = (1 :: lr).getD N 0 := by
    rw [List.getD_append _ _ _ _ (by simp; omega)]
  have hL0s : (psiOf A.shape A.get R lr rr Y.cores N).shape = (Y.cores.getD N (ND.zeros [])).shape := by
    rw [hC N (by omega), psiOf_shape, ← hrkN]
    have e1 : (1 :: lr ++ [1]).getD (N + 1) 0 = 1 := aug_last (by omega)
    have e2 : (rr ++ [1]).getD N 0 = 1 := by
      rw [List.getD_append_right _ _ _ _ (by omega), show N - rr.length = 0 by omega]; rfl
    show _ = [(1 :: lr ++ [1]).getD N 0, A.shape.getD N 0, (1 :: lr ++ [1]).getD (N + 1) 0]
    rw [e1, e2]
  -- a train of exactly orthogonal cores
  have hpart : ∃ cs' : List (ND ℝ), cs'.length = A.shape.length ∧
      Cores cs' (fun k => (1 :: lr ++ [1]).getD k 0) (fun k => A.shape.getD k 0) ∧
      ∀ mu < N, cs'.getD mu (ND.zeros []) = Q' mu := by
    refine ⟨(List.range N).map Q' ++ [Y.cores.getD N (ND.zeros [])], by simp; omega, fun mu hmu => ?_, fun mu hmu => ?_⟩
    · simp only [List.length_append, List.length_map, List.length_range, List.length_singleton] at hmu
      by_cases hm : mu < N
      · rw [List.getD_append _ _ _ _ (by simpa using hm), getD_map_range _ _ _ _ hm, (hq mu hm).2.2.1.1]
        exact hC mu (by omega)
      · have : mu = N := by omega
        subst this
        rw [List.getD_append_right _ _ _ _ (by simp)]
        simp only [List.length_map, List.length_range, Nat.sub_self, List.getD_cons_zero]
        exact hC mu (by omega)
    · rw [List.getD_append _ _ _ _ (by simpa using hmu), getD_map_range _ _ _ _ hmu]
  refine ⟨fun mu hmu => ⟨Q' mu, (hq mu hmu).2.2.1⟩, S, fun mu hmu => (hq mu hmu).2.2.2.2.2, fun B H => ?_,
    fun mu hmu G hG hinv hsm => ?_⟩
  · have key := frame_run_fl hε hd hl hlen hC (Q' := Q') (E := eP N) (L0 := psiOf A.shape A.get R lr rr Y.cores N)
      (by rw [← hN]; exact hL0s)
      (by
        rw [← hN]
        intro a ha j hj
        unfold psiOf
        rw [ND.ofFn_get]
        · show psiSpec A.shape A.get (coreMats Y.cores) R N a j 0 = _
          rw [hN]
          exact psiSpec_last (by omega) hR a j 0
        · refine ⟨by rw [← hrkN]; exact ha, hj, ?_, trivial⟩
          rw [List.getD_append_right _ _ _ _ (by omega), show N - rr.length = 0 by omega]
          exact Nat.one_pos)
      (by rw [← hN]; exact hlast)
      (by rw [← hN]; exact fun mu hmu => (hq mu hmu).2.2.1)
      (fun mu => rangeErrSq A R (mu + 1) (rr.getD mu 0) (B mu))
      (fun mu => orthFloatBond ε A L R (A.shape.length - 1) (mu + 1) (lr.getD mu 0) (rr.getD mu 0) (B mu) (H mu)
        (frobN (S mu)) (eO mu) (eP mu))
      (fun mu _ => by unfold rangeErrSq; exact sumIdx_nonneg fun _ => sq_nonneg _) (fun cs' hl' hC' hcs' mu hmu => by
        rw [← hN] at hmu hcs' ⊢
        obtain ⟨q0, q1, q2, q3, q4, -⟩ := hq mu hmu
        have hp : ∀ k < mu, Partner ε (Y.cores.getD k (ND.zeros [])) (cs'.getD k (ND.zeros [])) :=
          fun k hk => by rw [hcs' k (by omega)]; exact (hq k (by omega)).2.2.1
        have hη : 0 ≤ ε * frobN ((sketchOf A.shape A.get L R lr rr).omega.getD mu (ND.zeros [])) + (1 + ε) * eO mu :=
          add_nonneg (mul_nonneg hε (frobN_nonneg _)) (mul_nonneg (by linarith) (hO0 mu))
        have hres := bond_resid_fl (R := R) (f := A.get) hε hη hC hC' rfl (mu := mu) (by omega) (by omega)
          (by omega : mu < A.shape.length) (fun _ => rfl) hp (l := lr.getD mu 0) (r := rr.getD mu 0)
          (by rw [hrk mu hmu]; exact hPs mu hmu) (hom mu hmu) (hpg mu hmu) (by rw [hrk mu hmu]; exact q1) (H mu)
        have hOm := hom mu hmu
        have hPm := hPs mu hmu
        have eOn := hOn mu hmu
        have eOg := hOg mu hmu
        have hpg' := hpg mu hmu
        have o0 := hO0 mu
        have P0 := hP0 mu
        generalize eO mu = eo at *
        generalize eP mu = ep at *
        generalize (sketchOf A.shape A.get L R lr rr).omega.getD mu (ND.zeros []) = O at *
        generalize psiOf A.shape A.get R lr rr Y.cores mu = P at *
        generalize S mu = C at *
        have hdr := drop_cons (show mu < A.shape.length by omega)
        have hEs := ND.es_ijk_kl_ijl_shape q0 hOm
        have t1 := mulU_diff (P' := P) hEs (A.shape.drop (mu + 1)) (B mu)
        have t2 := mulU_diff (P' := C' mu) q0 (A.shape.drop (mu + 1))
          fun c q => ∑ b ∈ range (rr.getD mu 0), O.get [c, b] * B mu b q
        have t3 := mat_norm hOm (A.shape.drop (mu + 1)) (B mu)
        have t4 : mulU (ND.es_ijk_kl_ijl C O) (rr.getD mu 0) (B mu)
            = mulU C (lr.getD mu 0) fun c q => ∑ b ∈ range (rr.getD mu 0), O.get [c, b] * B mu b q := by
          funext x p
          unfold mulU
          simp only [mul_sum]
          rw [sum_comm]
          refine sum_congr rfl fun b _ => ?_
          rw [ND.es_ijk_kl_ijl_get q0 hOm, sum_mul]
          exact sum_congr rfl fun c _ => mul_assoc _ _ _
        rw [← hdr] at t1 t2
        have tr := dL_triangle ((1 :: lr).getD mu 0) (A.shape.drop mu) (mulU P (rr.getD mu 0) (B mu))
          (mulU (ND.es_ijk_kl_ijl C O) (rr.getD mu 0) (B mu))
          (mulU (C' mu) (lr.getD mu 0) fun c q => ∑ b ∈ range (rr.getD mu 0), O.get [c, b] * B mu b q)
        rw [dL_symm] at t1
        rw [← t4] at t2
        have hβ := dL_nonneg (rr.getD mu 0) (A.shape.drop (mu + 1)) (B mu) zL
        have u1 := mul_le_mul_of_nonneg_right hres hβ
        have u2 := mul_le_mul q3 t3 (dL_nonneg _ _ _ _) (mul_nonneg hε (frobN_nonneg C))
        have tt := tr.trans (add_le_add (t1.trans u1) (t2.trans u2))
        have eD : dL ((1 :: lr ++ [1]).getD mu 0) (A.shape.drop mu) (mulU P (rr.getD mu 0) (B mu))
            (mulU (C' mu) ((1 :: lr ++ [1]).getD (mu + 1) 0) fun c q => ∑ b ∈ range (rr.getD mu 0), O.get [c, b] * B mu b q)
            = dL ((1 :: lr).getD mu 0) (A.shape.drop mu) (mulU P (rr.getD mu 0) (B mu))
              (mulU (C' mu) (lr.getD mu 0) fun c q => ∑ b ∈ range (rr.getD mu 0), O.get [c, b] * B mu b q) := by
          rw [hrk mu hmu, hrk' mu hmu]
        have tt' := le_of_eq_of_le eD tt
        obtain ⟨z, hz⟩ := defect_gen (R := R) (f := A.get) hε hC hC' rfl (mu := mu) (by omega) (by omega)
          (by omega : mu < A.shape.length) (fun _ => rfl) hp (P := P) (P' := C' mu) (y := y mu) (r := rr.getD mu 0) hpg'
          (fun a ha j hj b hb => by
            rw [hcs' mu hmu]
            beta_reduce at hb ⊢
            rw [hrk' mu hmu] at hb ⊢
            exact q4 a (by rw [← hrk mu hmu]; exact ha) j hj b hb)
          (B mu) (fun c q => ∑ b ∈ range (rr.getD mu 0), O.get [c, b] * B mu b q) tt'
        refine ⟨z, hz.trans (pow_le_pow_left₀ ?_ ?_ 2)⟩
        · have := frobN_nonneg O
          have := frobN_nonneg C
          positivity
        · have e3 : (sumIdx A.shape fun i => (A.get i - projU A.shape A.get R (mu + 1) (rr.getD mu 0) (B mu) i) ^ 2)
              = rangeErrSq A R (mu + 1) (rr.getD mu 0) (B mu) := rfl
          have e4 : √ (sumIdx (A.shape.take (mu + 1)) fun p => ∑ b ∈ range (rr.getD mu 0), pcR A.shape A.get R (mu + 1) p b ^ 2)
              = sketchedNorm A R (mu + 1) (rr.getD mu 0) := rfl
          have e5 : √ (sumIdx (A.shape.take (mu + 1)) fun p => ∑ c ∈ range (lr.getD mu 0), H mu p c ^ 2)
              = rowCoeffNorm A.shape (mu + 1) (lr.getD mu 0) (H mu) := rfl
          have e6 : dL (rr.getD mu 0) (A.shape.drop (mu + 1)) (B mu) zL
              = coeffNorm A.shape (mu + 1) (rr.getD mu 0) (B mu) := by
            unfold dL distL coeffNorm zL
            simp only [sub_zero]
          have e7 : √ (sumIdx (A.shape.take (mu + 1)) fun p => ∑ b ∈ range (rr.getD mu 0),
                (pcR A.shape A.get R (mu + 1) p b - ∑ c ∈ range (lr.getD mu 0), H mu p c * O.get [c, b]) ^ 2)
              = fitErr A L R (mu + 1) (lr.getD mu 0) (rr.getD mu 0) (H mu) := by
            unfold fitErr
            congr 1
            refine sumIdx_congr fun p _ => sum_congr rfl fun b hb => ?_
            congr 2
            exact sum_congr rfl fun c hc => by rw [eOg c (by simpa using hc) b (by simpa using hb)]
          rw [e3, e4, e5, e6, e7, eOn]
          unfold orthFloatBond
          have s0 : 0 ≤ sketchedNorm A R (mu + 1) (rr.getD mu 0) := Real.sqrt_nonneg _
          have f0 : 0 ≤ fitErr A L R (mu + 1) (lr.getD mu 0) (rr.getD mu 0) (H mu) := Real.sqrt_nonneg _
          have m0 : 0 ≤ midNorm A L R (mu + 1) (lr.getD mu 0) (rr.getD mu 0) := Real.sqrt_nonneg _
          have h0 : 0 ≤ rowCoeffNorm A.shape (mu + 1) (lr.getD mu 0) (H mu) := Real.sqrt_nonneg _
          have b0 : 0 ≤ coeffNorm A.shape (mu + 1) (rr.getD mu 0) (B mu) := Real.sqrt_nonneg _
          generalize sketchedNorm A R (mu + 1) (rr.getD mu 0) = σ at *
          generalize fitErr A L R (mu + 1) (lr.getD mu 0) (rr.getD mu 0) (H mu) = φ at *
          generalize midNorm A L R (mu + 1) (lr.getD mu 0) (rr.getD mu 0) = ω at *
          generalize rowCoeffNorm A.shape (mu + 1) (lr.getD mu 0) (H mu) = η at *
          generalize coeffNorm A.shape (mu + 1) (rr.getD mu 0) (B mu) = β at *
          have hmuN : ((mu : ℝ) + 2) ≤ N + 1 := by exact_mod_cast (show mu + 2 ≤ N + 1 by omega)
          generalize frobN C = c at *
          have v1 : (1 + ε) ^ mu * (((mu : ℝ) + 2) * ε * σ + φ + (ε * ω + (1 + ε) * eo) * η)
              ≤ (1 + ε) ^ N * (((N : ℝ) + 1) * ε * σ + φ + (ε * ω + (1 + ε) * eo) * η) := by
            refine mul_le_mul (hpw mu (by omega)) ?_ (by positivity) (by positivity)
            have := mul_le_mul_of_nonneg_right hmuN (mul_nonneg hε s0)
            linarith
          have v2 := mul_le_mul_of_nonneg_right v1 b0
          have e8 : ((1 + ε) ^ N * (((N : ℝ) + 1) * ε * σ + φ + (ε * ω + (1 + ε) * eo) * η)
                + (2 * ε * ω + (1 + ε) * eo) * c + 2 * (1 + ε) * ep) * β
              = (1 + ε) ^ N * (((N : ℝ) + 1) * ε * σ + φ + (ε * ω + (1 + ε) * eo) * η) * β
                + ((2 * ε * ω + (1 + ε) * eo) * c + 2 * (1 + ε) * ep) * β := by ring
          have e9 : (mu : ℝ) * ε * (1 + ε) ^ mu * (σ * β) + (((1 + ε) ^ mu * (φ + (ε * ω + (1 + ε) * eo) * η + 2 * ε * σ)
                + (ε * ω + (1 + ε) * eo) * c + 2 * (1 + ε) * ep) * β + ε * c * (ω * β))
              = (1 + ε) ^ mu * (((mu : ℝ) + 2) * ε * σ + φ + (ε * ω + (1 + ε) * eo) * η) * β
                + ((2 * ε * ω + (1 + ε) * eo) * c + 2 * (1 + ε) * ep) * β := by ring
          rw [e8, e9]
          linarith)
    rw [← hN] at key
    unfold orthFloatBound
    rw [← hN]
    exact key
  · obtain ⟨cs', hl', hC', hcs'⟩ := hpart
    obtain ⟨q0, q1, -, -, -, -⟩ := hq mu hmu
    have k := solve_norm_fl q0 (hom mu hmu) (hPs mu hmu) hG (fun a ha c hc => by
      rw [← hinv a ha c hc]
      exact sum_congr rfl fun b hb => by rw [hOg mu hmu a ha b (by simpa using hb)]) (by rw [hOn mu hmu]; exact hsm) q1
    have k2 := psi_norm (f := A.get) (R := R) hε hC hC' rfl (mu := mu) (by omega) (by omega)
      (by omega : mu < A.shape.length) (fun _ => rfl)
      (fun k hk => by rw [hcs' k (by omega)]; exact (hq k (by omega)).2.2.1) (rr.getD mu 0)
      (by rw [hrk mu hmu]; exact hPs mu hmu) (hpg mu hmu)
    refine k.trans ?_
    have g0 := frobN_nonneg G
    have s0 : 0 ≤ sketchedNorm A R (mu + 1) (rr.getD mu 0) := Real.sqrt_nonneg _
    refine mul_le_mul_of_nonneg_left (add_le_add_left (k2.trans ?_) _) (by positivity)
    exact mul_le_mul_of_nonneg_right (hpw mu (by omega)) s0

end TTS
