import Verif.Proofs.ApproxStream
import Verif.Spec.ApproxOrthSketch

/-! The method `orthogonal` with inexact QR factorisations and inexact least squares. -/

namespace TTS

open Finset TTS.Props

theorem LstsqApproxContract.lstsqShape {env : Env ℝ} {ε : ℝ} (hE : LstsqApproxContract env ε) : LstsqShape env :=
  fun A B m n k h1 h2 => (hE A B m n k h1 h2).1

/-- One step of the method `orthogonal` is a step of the method `hmt` for the solution. -/
theorem orthStep_solution {env : Env ℝ} (hE : LstsqShape env) {P O : ND ℝ} {a n r f : ℕ} (hP : P.shape = [a, n, r])
    (hO : O.shape = [f, r]) : (solution env P O).shape = [a, n, f] ∧
      orthStep env P (some O) = orthStep env (solution env P O) none ∧
      solution env P O = (rightMulPinv env (P.reshape [a * n, r]) O).reshape [a, n, f] := by
  have e : solution env P O = (rightMulPinv env (P.reshape [a * n, r]) O).reshape [a, n, f] := by
    unfold solution
    rw [(dim_of_shape3 hP).1, (dim_of_shape3 hP).2.1, (dim_of_shape3 hP).2.2, dim0_of_shape2 hO]
    rfl
  have hM := rightMulPinv_shape hE (P := P.reshape [a * n, r]) (m := a * n) rfl hO
  have hs : (solution env P O).shape = [a, n, f] := by rw [e]; rfl
  refine ⟨hs, ?_, e⟩
  rw [orthStep_eq hP hO]
  have e2 : orthStep env (solution env P O) none
      = (env.qr ((solution env P O).reshape [a * n, f])).1.reshape? [a, n, f] := by
    unfold orthStep; rw [(dim_of_shape3 hs).1, (dim_of_shape3 hs).2.1, (dim_of_shape3 hs).2.2]
  rw [e2, e, ND.reshape_reshape (by rw [hM]; simp [mul_assoc]) (by rw [hM])]
  congr 3
  rw [← hM, ND.reshape_self]

/-- A matrix applied to the first index of a family. -/
theorem mat_norm {O : ND ℝ} {l r : ℕ} (hO : O.shape = [l, r]) (rest : List ℕ) (U : ℕ → List ℕ → ℝ) :
    dL l rest (fun c q => ∑ b ∈ range r, O.get [c, b] * U b q) zL ≤ frobN O * dL r rest U zL := by
  refine (Real.sqrt_le_left (mul_nonneg (frobN_nonneg _) (dL_nonneg _ _ _ _))).2 ?_
  rw [mul_pow, dL_sq, frobN_mat hO, distL_swap r, distL_swap l, mul_sum]
  refine sum_le_sum fun q _ => ?_
  rw [sum_mul]
  refine sum_le_sum fun c _ => ?_
  simp only [zL, sub_zero]
  exact sum_mul_sq_le_sq_mul_sq _ _ _

/-- The residual of a bond, in terms of the tensor. -/
theorem bond_resid {sh : List ℕ} {f : List ℕ → ℝ} {R : Mats ℝ} {cs cs' : List (ND ℝ)} {rk n : ℕ → ℕ} {ε : ℝ}
    (hε : 0 ≤ ε) (h : Cores cs rk n) (h' : Cores cs' rk n)
    (h0 : rk 0 = 1) {mu : ℕ} (h1 : mu ≤ cs.length) (h2 : mu ≤ cs'.length) (h3 : mu < sh.length)
    (hn : ∀ k, n k = sh.getD k 0)
    (hp : ∀ k < mu, Partner ε (cs.getD k (ND.zeros [])) (cs'.getD k (ND.zeros []))) {l r : ℕ}
    {C P O : ND ℝ} (hP : P.shape = [rk mu, n mu, r]) (hO : O.shape = [l, r])
    (hg : ∀ a < rk mu, ∀ j < n mu, ∀ b < r, P.get [a, j, b] = psiSpec sh f (coreMats cs) R mu a j b)
    (hres : ∀ Z : ND ℝ, Z.shape = [rk mu, n mu, l] → frobD (ND.es_ijk_kl_ijl C O) P
      ≤ frobD (ND.es_ijk_kl_ijl Z O) P + ε * frobN O * (frobN C + frobN Z) + 2 * ε * frobN P)
    (H : List ℕ → ℕ → ℝ) :
    frobD (ND.es_ijk_kl_ijl C O) P ≤ (1 + ε) ^ mu * (√ (sumIdx (sh.take (mu + 1)) fun p => ∑ b ∈ range r,
          (pcR sh f R (mu + 1) p b - ∑ c ∈ range l, H p c * O.get [c, b]) ^ 2)
        + ε * frobN O * √ (sumIdx (sh.take (mu + 1)) fun p => ∑ c ∈ range l, H p c ^ 2)
        + 2 * ε * √ (sumIdx (sh.take (mu + 1)) fun p => ∑ b ∈ range r, pcR sh f R (mu + 1) p b ^ 2))
      + ε * frobN O * frobN C := by
  let Z : ND ℝ := ND.ofFn [rk mu, n mu, l] fun i => sumIdx (sh.take mu) fun p =>
    coreMats cs mu p (i.getD 0 0) * H (p ++ [i.getD 1 0]) (i.getD 2 0)
  have hZ : Z.shape = [rk mu, n mu, l] := rfl
  have Zg : ∀ a < rk mu, ∀ j < n mu, ∀ c < l,
      Z.get [a, j, c] = sumIdx (sh.take mu) fun p => coreMats cs mu p a * H (p ++ [j]) c := by
    intro a ha j hj c hc
    rw [ND.ofFn_get (s := [rk mu, n mu, l]) (i := [a, j, c]) ⟨ha, hj, hc, trivial⟩]
    rfl
  let T : List ℕ → ℕ → ℝ := fun p b => pcR sh f R (mu + 1) p b - ∑ c ∈ range l, H p c * O.get [c, b]
  let D : ND ℝ := ND.ofFn [rk mu, n mu, r] fun i => sumIdx (sh.take mu) fun p =>
    coreMats cs mu p (i.getD 0 0) * T (p ++ [i.getD 1 0]) (i.getD 2 0)
  have Dg : ∀ a < rk mu, ∀ j < n mu, ∀ b < r,
      D.get [a, j, b] = sumIdx (sh.take mu) fun p => coreMats cs mu p a * T (p ++ [j]) b := by
    intro a ha j hj c hc
    rw [ND.ofFn_get (s := [rk mu, n mu, r]) (i := [a, j, c]) ⟨ha, hj, hc, trivial⟩]
    rfl
  have k1 := front_norm hε h h' h0 h1 h2 h3 hn hp l H hZ Zg
  have k2 := front_norm hε h h' h0 h1 h2 h3 hn hp r T (P := D) rfl Dg
  have k3 := psi_norm (R := R) hε h h' h0 h1 h2 h3 hn hp r hP hg
  have k4 : frobD (ND.es_ijk_kl_ijl Z O) P = frobN D := by
    rw [frobD_eq3 (ND.es_ijk_kl_ijl_shape hZ hO), frobN_eq3 (A := D) rfl]
    congr 1
    refine sum_congr rfl fun a ha => sum_congr rfl fun j hj => sum_congr rfl fun b hb => ?_
    have ha : a < rk mu := by simpa using ha
    have hj : j < n mu := by simpa using hj
    have hb : b < r := by simpa using hb
    rw [ND.es_ijk_kl_ijl_get hZ hO, Dg a ha j hj b hb, hg a ha j hj b hb, psiSpec_right]
    have : ∀ c ∈ range l, Z.get [a, j, c] * O.get [c, b]
        = sumIdx (sh.take mu) fun p => coreMats cs mu p a * H (p ++ [j]) c * O.get [c, b] := by
      intro c hc
      rw [Zg a ha j hj c (by simpa using hc), sumIdx_mul]
    rw [sum_congr rfl this, ← sumIdx_sum, sub_sq_comm, ← sumIdx_sub]
    congr 1
    refine sumIdx_congr fun p _ => ?_
    show _ = coreMats cs mu p a * (pcR sh f R (mu + 1) (p ++ [j]) b - ∑ c ∈ range l, H (p ++ [j]) c * O.get [c, b])
    rw [mul_sub, mul_sum]
    congr 1
    exact sum_congr rfl fun c _ => mul_assoc _ _ _
  have k5 := hres Z hZ
  rw [k4] at k5
  have c1 := mul_le_mul_of_nonneg_left k1 (mul_nonneg hε (frobN_nonneg O))
  have c3 := mul_le_mul_of_nonneg_left k3 hε
  have e : (1 + ε) ^ mu * (√ (sumIdx (sh.take (mu + 1)) fun p => ∑ b ∈ range r,
          (pcR sh f R (mu + 1) p b - ∑ c ∈ range l, H p c * O.get [c, b]) ^ 2)
        + ε * frobN O * √ (sumIdx (sh.take (mu + 1)) fun p => ∑ c ∈ range l, H p c ^ 2)
        + 2 * ε * √ (sumIdx (sh.take (mu + 1)) fun p => ∑ b ∈ range r, pcR sh f R (mu + 1) p b ^ 2))
      = (1 + ε) ^ mu * √ (sumIdx (sh.take (mu + 1)) fun p => ∑ b ∈ range r, T p b ^ 2)
        + ε * frobN O * ((1 + ε) ^ mu * √ (sumIdx (sh.take (mu + 1)) fun p => ∑ c ∈ range l, H p c ^ 2))
        + 2 * (ε * ((1 + ε) ^ mu * √ (sumIdx (sh.take (mu + 1)) fun p => ∑ b ∈ range r, pcR sh f R (mu + 1) p b ^ 2))) := by
    ring
  rw [e]
  linarith

/-- The whole run. -/
theorem orth_sketch_approx {env : Env ℝ} {ε : ℝ} (hε : 0 ≤ ε) (hQ : QRApproxContract env ε) (hE : LstsqApproxContract env ε)
    {A : ND ℝ} {L R : Mats ℝ} {lr rr : List ℕ} {Y : TT ℝ}
    (h : OrthRun env A.shape A.get R lr rr (some (sketchOf A.shape A.get L R lr rr).omega) Y.cores A.shape.length)
    (hd : 2 ≤ A.shape.length) (hl : lr.length = A.shape.length - 1) (hr : rr.length = A.shape.length - 1)
    (hR : ∀ b, R A.shape.length [] b = 1) (p1 : ∀ n ∈ A.shape, 0 < n) (p2 : ∀ r ∈ lr, 0 < r) :
    (∀ mu < A.shape.length - 1, ∃ C', Partner ε (Y.cores.getD mu (ND.zeros [])) C') ∧
    (∀ (B : ℕ → ℕ → List ℕ → ℝ) (H : ℕ → List ℕ → ℕ → ℝ), frobD A Y.toNumpy
      ≤ orthBound ε A L R lr rr B H fun mu => frobN (bondSolution env A L R lr rr Y mu)) ∧
    ∀ mu < A.shape.length - 1, ∀ G : ND ℝ, G.shape = [rr.getD mu 0, lr.getD mu 0] →
      (∀ a < lr.getD mu 0, ∀ c < lr.getD mu 0, ∑ b ∈ range (rr.getD mu 0), midSketch A L R (mu + 1) a b * G.get [b, c]
        = if a = c then 1 else 0) →
      ε * frobN G * midNorm A L R (mu + 1) (lr.getD mu 0) (rr.getD mu 0) ≤ 1 / 2 →
      frobN (bondSolution env A L R lr rr Y mu)
        ≤ 4 * (1 + ε) ^ (A.shape.length - 1) * frobN G * sketchedNorm A R (mu + 1) (rr.getD mu 0) := by
  obtain ⟨N, hN⟩ : ∃ N, N = A.shape.length - 1 := ⟨_, rfl⟩
  have hom := (sketchOf_hasShape A.shape A.get L R lr rr).omega
  have hC := orthRun_shape h hl hr hom le_rfl
  rw [← hN] at hom ⊢
  have hlen : Y.cores.length = A.shape.length := h.len
  have hlast := orthRun_last h (by omega) hl hr hR
  rw [← hN] at hlast
  have hPs : ∀ mu < N, (psiOf A.shape A.get R lr rr Y.cores mu).shape
      = [(1 :: lr).getD mu 0, A.shape.getD mu 0, rr.getD mu 0] := by
    intro mu hmu
    have hP := psiOf_shape A.shape A.get R lr rr Y.cores mu
    rwa [List.getD_append _ _ _ _ (by omega)] at hP
  have hsol : ∀ mu < N, bondSolution env A L R lr rr Y mu
      = solution env (psiOf A.shape A.get R lr rr Y.cores mu) ((sketchOf A.shape A.get L R lr rr).omega.getD mu (ND.zeros [])) := by
    intro mu hmu
    unfold bondSolution
    congr 1
    show List.getD ((List.range A.shape.length).map _) mu _ = _
    rw [getD_map_range _ _ _ _ (by omega)]
    rfl
  have hOg : ∀ mu < N, ∀ c < lr.getD mu 0, ∀ b < rr.getD mu 0,
      ((sketchOf A.shape A.get L R lr rr).omega.getD mu (ND.zeros [])).get [c, b] = midSketch A L R (mu + 1) c b := by
    intro mu hmu c hc b hb
    rw [sketchOf_omega_get (by omega) hc hb, omegaSpec_right]
    rfl
  have hOn : ∀ mu < N, frobN ((sketchOf A.shape A.get L R lr rr).omega.getD mu (ND.zeros []))
      = midNorm A L R (mu + 1) (lr.getD mu 0) (rr.getD mu 0) := by
    intro mu hmu
    rw [← Real.sqrt_sq (frobN_nonneg _), frobN_mat (hom mu hmu)]
    unfold midNorm
    congr 1
    exact sum_congr rfl fun c hc => sum_congr rfl fun b hb => by
      rw [hOg mu hmu c (by simpa using hc) b (by simpa using hb)]
  -- partners
  have key : ∀ mu, ∃ (Q' C' : ND ℝ) (y : ℕ → ℕ → ℝ), mu < N →
      (bondSolution env A L R lr rr Y mu).shape = [(1 :: lr).getD mu 0, A.shape.getD mu 0, lr.getD mu 0] ∧
      (∀ Z : ND ℝ, Z.shape = [(1 :: lr).getD mu 0, A.shape.getD mu 0, lr.getD mu 0] →
        frobD (ND.es_ijk_kl_ijl (bondSolution env A L R lr rr Y mu)
            ((sketchOf A.shape A.get L R lr rr).omega.getD mu (ND.zeros []))) (psiOf A.shape A.get R lr rr Y.cores mu)
          ≤ frobD (ND.es_ijk_kl_ijl Z ((sketchOf A.shape A.get L R lr rr).omega.getD mu (ND.zeros [])))
              (psiOf A.shape A.get R lr rr Y.cores mu)
            + ε * frobN ((sketchOf A.shape A.get L R lr rr).omega.getD mu (ND.zeros []))
              * (frobN (bondSolution env A L R lr rr Y mu) + frobN Z)
            + 2 * ε * frobN (psiOf A.shape A.get R lr rr Y.cores mu)) ∧
      Partner ε (Y.cores.getD mu (ND.zeros [])) Q' ∧
      frobD (bondSolution env A L R lr rr Y mu) C' ≤ ε * frobN (bondSolution env A L R lr rr Y mu) ∧
      ∀ i < (1 :: lr).getD mu 0, ∀ j < A.shape.getD mu 0, ∀ b < lr.getD mu 0,
        ∑ t ∈ range (lr.getD mu 0), Q'.get [i, j, t] * y t b = C'.get [i, j, b] := by
    intro mu
    by_cases hmu : mu < N
    · obtain ⟨s1, s2, s3⟩ := orthStep_solution hE.lstsqShape (hPs mu hmu) (hom mu hmu)
      obtain ⟨C, c1, c2, c3⟩ := rightCore_approx hε hE (hPs mu hmu) (hom mu hmu)
      have hM := rightMulPinv_shape hE.lstsqShape (P := (psiOf A.shape A.get R lr rr Y.cores mu).reshape
        [(1 :: lr).getD mu 0 * A.shape.getD mu 0, rr.getD mu 0]) (m := (1 :: lr).getD mu 0 * A.shape.getD mu 0) rfl (hom mu hmu)
      rw [reshape?_ok hM (by simp [mul_assoc])] at c1
      injection c1 with c1
      rw [← s3, ← hsol mu hmu] at c1
      subst c1
      have hstep := h.step mu (by omega) (by omega)
      change orthStep env _ (some ((sketchOf A.shape A.get L R lr rr).omega.getD mu (ND.zeros []))) = _ at hstep
      rw [s2, ← hsol mu hmu] at hstep
      obtain ⟨Q', C', y, q⟩ := orthStep_approx hQ c2 (positive_fit p1 p2 hl mu (by omega)) hstep
      exact ⟨Q', C', y, fun _ => ⟨c2, c3, q⟩⟩
    · exact ⟨ND.zeros [], ND.zeros [], fun _ _ => 0, fun h => absurd h hmu⟩
  choose Q' C' y hq using key
  have hrk : ∀ mu < N, (1 :: lr ++ [1]).getD mu 0 = (1 :: lr).getD mu 0 := fun mu hmu => aug_left (by omega)
  have hrk' : ∀ mu < N, (1 :: lr ++ [1]).getD (mu + 1) 0 = lr.getD mu 0 := fun mu hmu => aug_right (by omega)
  have hpw : ∀ mu ≤ N, (1 + ε) ^ mu ≤ (1 + ε) ^ N := fun mu hmu => pow_le_pow_right₀ (by linarith) hmu
  have hpg : ∀ mu < N, ∀ a < (1 :: lr ++ [1]).getD mu 0, ∀ j < A.shape.getD mu 0, ∀ b < rr.getD mu 0,
      (psiOf A.shape A.get R lr rr Y.cores mu).get [a, j, b] = psiSpec A.shape A.get (coreMats Y.cores) R mu a j b :=
    fun mu hmu a ha j hj b hb => psiOf_get (by omega) (by rw [← hrk mu hmu]; exact ha) hj hb
  -- a train of exactly orthogonal cores
  have hpart : ∃ cs' : List (ND ℝ), cs'.length = A.shape.length ∧
      Cores cs' (fun k => (1 :: lr ++ [1]).getD k 0) (fun k => A.shape.getD k 0) ∧
      ∀ mu < N, cs'.getD mu (ND.zeros []) = Q' mu := by
    refine ⟨(List.range N).map Q' ++ [Y.cores.getD N (ND.zeros [])], by simp; omega, fun mu hmu => ?_, fun mu hmu => ?_⟩
    · simp only [List.length_append, List.length_map, List.length_range, List.length_singleton] at hmu
      by_cases hm : mu < N
      · rw [List.getD_append _ _ _ _ (by simpa using hm), getD_map_range _ _ _ _ hm, (hq mu hm).2.2.1.1]
        exact hC mu (by omega)
      · have : mu = N := by omega
        subst this
        rw [List.getD_append_right _ _ _ _ (by simp)]
        simp only [List.length_map, List.length_range, Nat.sub_self, List.getD_cons_zero]
        exact hC mu (by omega)
    · rw [List.getD_append _ _ _ _ (by simpa using hmu), getD_map_range _ _ _ _ hmu]
  refine ⟨fun mu hmu => ⟨Q' mu, (hq mu hmu).2.2.1⟩, fun B H => ?_, fun mu hmu G hG hinv hsm => ?_⟩
  · have key := frame_run hε hd hl hlen hC (by rw [← hN]; exact hlast) (Q' := Q')
      (by rw [← hN]; exact fun mu hmu => (hq mu hmu).2.2.1)
      (fun mu => rangeErrSq A R (mu + 1) (rr.getD mu 0) (B mu))
      (fun mu => orthBond ε A L R (A.shape.length - 1) (mu + 1) (lr.getD mu 0) (rr.getD mu 0) (B mu) (H mu)
        (frobN (bondSolution env A L R lr rr Y mu)))
      (fun mu _ => by unfold rangeErrSq; exact sumIdx_nonneg fun _ => sq_nonneg _) (fun cs' hl' hC' hcs' mu hmu => by
        rw [← hN] at hmu hcs' ⊢
        obtain ⟨q0, q1, q2, q3, q4⟩ := hq mu hmu
        have hp : ∀ k < mu, Partner ε (Y.cores.getD k (ND.zeros [])) (cs'.getD k (ND.zeros [])) :=
          fun k hk => by rw [hcs' k (by omega)]; exact (hq k (by omega)).2.2.1
        have hres := bond_resid (R := R) (f := A.get) hε hC hC' rfl (mu := mu) (by omega) (by omega)
          (by omega : mu < A.shape.length) (fun _ => rfl) hp (l := lr.getD mu 0) (r := rr.getD mu 0)
          (by rw [hrk mu hmu]; exact hPs mu hmu) (hom mu hmu) (hpg mu hmu) (by rw [hrk mu hmu]; exact q1) (H mu)
        have hOm := hom mu hmu
        have hPm := hPs mu hmu
        have eOn := hOn mu hmu
        have eOg := hOg mu hmu
        have hpg' := hpg mu hmu
        generalize (sketchOf A.shape A.get L R lr rr).omega.getD mu (ND.zeros []) = O at *
        generalize psiOf A.shape A.get R lr rr Y.cores mu = P at *
        generalize bondSolution env A L R lr rr Y mu = C at *
        have hdr := drop_cons (show mu < A.shape.length by omega)
        have hEs := ND.es_ijk_kl_ijl_shape q0 hOm
        have t1 := mulU_diff (P' := P) hEs (A.shape.drop (mu + 1)) (B mu)
        have t2 := mulU_diff (P' := C' mu) q0 (A.shape.drop (mu + 1))
          fun c q => ∑ b ∈ range (rr.getD mu 0), O.get [c, b] * B mu b q
        have t3 := mat_norm hOm (A.shape.drop (mu + 1)) (B mu)
        have t4 : mulU (ND.es_ijk_kl_ijl C O) (rr.getD mu 0) (B mu)
            = mulU C (lr.getD mu 0) fun c q => ∑ b ∈ range (rr.getD mu 0), O.get [c, b] * B mu b q := by
          funext x p
          unfold mulU
          simp only [mul_sum]
          rw [sum_comm]
          refine sum_congr rfl fun b _ => ?_
          rw [ND.es_ijk_kl_ijl_get q0 hOm, sum_mul]
          exact sum_congr rfl fun c _ => mul_assoc _ _ _
        rw [← hdr] at t1 t2
        have tr := dL_triangle ((1 :: lr).getD mu 0) (A.shape.drop mu) (mulU P (rr.getD mu 0) (B mu))
          (mulU (ND.es_ijk_kl_ijl C O) (rr.getD mu 0) (B mu))
          (mulU (C' mu) (lr.getD mu 0) fun c q => ∑ b ∈ range (rr.getD mu 0), O.get [c, b] * B mu b q)
        rw [dL_symm] at t1
        rw [← t4] at t2
        have hβ := dL_nonneg (rr.getD mu 0) (A.shape.drop (mu + 1)) (B mu) zL
        have u1 := mul_le_mul_of_nonneg_right hres hβ
        have u2 := mul_le_mul q3 t3 (dL_nonneg _ _ _ _) (mul_nonneg hε (frobN_nonneg C))
        have tt := tr.trans (add_le_add (t1.trans u1) (t2.trans u2))
        have eD : dL ((1 :: lr ++ [1]).getD mu 0) (A.shape.drop mu) (mulU P (rr.getD mu 0) (B mu))
            (mulU (C' mu) ((1 :: lr ++ [1]).getD (mu + 1) 0) fun c q => ∑ b ∈ range (rr.getD mu 0), O.get [c, b] * B mu b q)
            = dL ((1 :: lr).getD mu 0) (A.shape.drop mu) (mulU P (rr.getD mu 0) (B mu))
              (mulU (C' mu) (lr.getD mu 0) fun c q => ∑ b ∈ range (rr.getD mu 0), O.get [c, b] * B mu b q) := by
          rw [hrk mu hmu, hrk' mu hmu]
        have tt' := le_of_eq_of_le eD tt
        obtain ⟨z, hz⟩ := defect_gen (R := R) (f := A.get) hε hC hC' rfl (mu := mu) (by omega) (by omega)
          (by omega : mu < A.shape.length) (fun _ => rfl) hp (P := P) (P' := C' mu) (y := y mu) (r := rr.getD mu 0) hpg'
          (fun a ha j hj b hb => by
            rw [hcs' mu hmu]
            beta_reduce at hb ⊢
            rw [hrk' mu hmu] at hb ⊢
            exact q4 a (by rw [← hrk mu hmu]; exact ha) j hj b hb)
          (B mu) (fun c q => ∑ b ∈ range (rr.getD mu 0), O.get [c, b] * B mu b q) tt'
        refine ⟨z, hz.trans (pow_le_pow_left₀ ?_ ?_ 2)⟩
        · have := frobN_nonneg O
          have := frobN_nonneg C
          positivity
        · have e3 : (sumIdx A.shape fun i => (A.get i - projU A.shape A.get R (mu + 1) (rr.getD mu 0) (B mu) i) ^ 2)
              = rangeErrSq A R (mu + 1) (rr.getD mu 0) (B mu) := rfl
          have e4 : √ (sumIdx (A.shape.take (mu + 1)) fun p => ∑ b ∈ range (rr.getD mu 0), pcR A.shape A.get R (mu + 1) p b ^ 2)
              = sketchedNorm A R (mu + 1) (rr.getD mu 0) := rfl
          have e5 : √ (sumIdx (A.shape.take (mu + 1)) fun p => ∑ c ∈ range (lr.getD mu 0), H mu p c ^ 2)
              = rowCoeffNorm A.shape (mu + 1) (lr.getD mu 0) (H mu) := rfl
          have e6 : dL (rr.getD mu 0) (A.shape.drop (mu + 1)) (B mu) zL
              = coeffNorm A.shape (mu + 1) (rr.getD mu 0) (B mu) := by
            unfold dL distL coeffNorm zL
            simp only [sub_zero]
          have e7 : √ (sumIdx (A.shape.take (mu + 1)) fun p => ∑ b ∈ range (rr.getD mu 0),
                (pcR A.shape A.get R (mu + 1) p b - ∑ c ∈ range (lr.getD mu 0), H mu p c * O.get [c, b]) ^ 2)
              = fitErr A L R (mu + 1) (lr.getD mu 0) (rr.getD mu 0) (H mu) := by
            unfold fitErr
            congr 1
            refine sumIdx_congr fun p _ => sum_congr rfl fun b hb => ?_
            congr 2
            exact sum_congr rfl fun c hc => by rw [eOg c (by simpa using hc) b (by simpa using hb)]
          rw [e3, e4, e5, e6, e7, eOn]
          unfold orthBond
          have s0 : 0 ≤ sketchedNorm A R (mu + 1) (rr.getD mu 0) := Real.sqrt_nonneg _
          have f0 : 0 ≤ fitErr A L R (mu + 1) (lr.getD mu 0) (rr.getD mu 0) (H mu) := Real.sqrt_nonneg _
          have m0 : 0 ≤ midNorm A L R (mu + 1) (lr.getD mu 0) (rr.getD mu 0) := Real.sqrt_nonneg _
          have h0 : 0 ≤ rowCoeffNorm A.shape (mu + 1) (lr.getD mu 0) (H mu) := Real.sqrt_nonneg _
          have b0 : 0 ≤ coeffNorm A.shape (mu + 1) (rr.getD mu 0) (B mu) := Real.sqrt_nonneg _
          generalize sketchedNorm A R (mu + 1) (rr.getD mu 0) = σ at *
          generalize fitErr A L R (mu + 1) (lr.getD mu 0) (rr.getD mu 0) (H mu) = φ at *
          generalize midNorm A L R (mu + 1) (lr.getD mu 0) (rr.getD mu 0) = ω at *
          generalize rowCoeffNorm A.shape (mu + 1) (lr.getD mu 0) (H mu) = η at *
          generalize coeffNorm A.shape (mu + 1) (rr.getD mu 0) (B mu) = β at *
          have hmuN : ((mu : ℝ) + 2) ≤ N + 1 := by exact_mod_cast (show mu + 2 ≤ N + 1 by omega)
          have v1 : (1 + ε) ^ mu * (((mu : ℝ) + 2) * ε * σ + φ + ε * ω * η)
              ≤ (1 + ε) ^ N * (((N : ℝ) + 1) * ε * σ + φ + ε * ω * η) := by
            refine mul_le_mul (hpw mu (by omega)) ?_ (by positivity) (by positivity)
            have := mul_le_mul_of_nonneg_right hmuN (mul_nonneg hε s0)
            linarith
          have v2 := mul_le_mul_of_nonneg_right v1 b0
          have e8 : ((1 + ε) ^ N * (((N : ℝ) + 1) * ε * σ + φ + ε * ω * η) + 2 * ε * ω * frobN C) * β
              = (1 + ε) ^ N * (((N : ℝ) + 1) * ε * σ + φ + ε * ω * η) * β + 2 * ε * ω * frobN C * β := by ring
          have e9 : (mu : ℝ) * ε * (1 + ε) ^ mu * (σ * β) + (((1 + ε) ^ mu * (φ + ε * ω * η + 2 * ε * σ)
                + ε * ω * frobN C) * β + ε * frobN C * (ω * β))
              = (1 + ε) ^ mu * (((mu : ℝ) + 2) * ε * σ + φ + ε * ω * η) * β + 2 * ε * ω * frobN C * β := by ring
          rw [e8, e9]
          linarith)
    unfold orthBound
    exact key
  · obtain ⟨cs', hl', hC', hcs'⟩ := hpart
    obtain ⟨q0, q1, -, -, -⟩ := hq mu hmu
    have k := solve_norm q0 (hom mu hmu) (hPs mu hmu) hG (fun a ha c hc => by
      rw [← hinv a ha c hc]
      exact sum_congr rfl fun b hb => by rw [hOg mu hmu a ha b (by simpa using hb)]) (by rw [hOn mu hmu]; exact hsm) q1
    have k2 := psi_norm (f := A.get) (R := R) hε hC hC' rfl (mu := mu) (by omega) (by omega)
      (by omega : mu < A.shape.length) (fun _ => rfl)
      (fun k hk => by rw [hcs' k (by omega)]; exact (hq k (by omega)).2.2.1) (rr.getD mu 0)
      (by rw [hrk mu hmu]; exact hPs mu hmu) (hpg mu hmu)
    refine k.trans ?_
    have g0 := frobN_nonneg G
    have s0 : 0 ≤ sketchedNorm A R (mu + 1) (rr.getD mu 0) := Real.sqrt_nonneg _
    have k3 := mul_le_mul_of_nonneg_left k2 (show 0 ≤ 4 * (1 + ε) * frobN G by positivity)
    refine k3.trans ?_
    have e4 : √ (sumIdx (A.shape.take (mu + 1)) fun p => ∑ b ∈ range (rr.getD mu 0), pcR A.shape A.get R (mu + 1) p b ^ 2)
        = sketchedNorm A R (mu + 1) (rr.getD mu 0) := rfl
    rw [e4]
    have := mul_le_mul_of_nonneg_left (hpw (mu + 1) (by omega)) (show 0 ≤ 4 * frobN G * sketchedNorm A R (mu + 1) (rr.getD mu 0) by
      positivity)
    rw [pow_succ] at this
    linarith

end TTS
