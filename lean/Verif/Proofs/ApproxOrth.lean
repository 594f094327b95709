import Verif.Proofs.ApproxSvd
import Verif.Proofs.OrthTT
import Verif.Spec.ApproxQr

/-! Orthogonalisation with inexact QR factorisations. -/

namespace TTS

open Finset

theorem frobN_nonneg (A : ND ℝ) : 0 ≤ frobN A := Real.sqrt_nonneg _

theorem frobD_nonneg (A B : ND ℝ) : 0 ≤ frobD A B := Real.sqrt_nonneg _

/-- the entries of a train with the first bond apart -/
noncomputable def valL (Cs : List (ND ℝ)) (x : ℕ) (p : List ℕ) : ℝ := ttVal Cs p x 0

theorem app_sub (M : ND ℝ) (r n k : ℕ) (rest : List ℕ) (T T' : ℕ → List ℕ → ℝ) :
    dL r (n :: rest) (app M n k T) (app M n k T') = dL r (n :: rest) (app M n k fun t q => T t q - T' t q) zL := by
  unfold dL
  rw [distL_step, distL_step]
  congr 1
  refine sum_congr rfl fun q _ => sum_congr rfl fun x _ => sum_congr rfl fun i _ => ?_
  simp only [app, zL, sub_zero, mul_sub, sum_sub_distrib]

theorem dL_sub (k : ℕ) (rest : List ℕ) (T T' : ℕ → List ℕ → ℝ) : dL k rest (fun t q => T t q - T' t q) zL = dL k rest T T' := by
  unfold dL distL zL
  simp only [sub_zero]

theorem app_iso {Q : ND ℝ} {r n k : ℕ} {rest : List ℕ} (h : Orthn (range (r * n)) k fun t j => Q.get [j, t])
    (T T' : ℕ → List ℕ → ℝ) : dL r (n :: rest) (app Q n k T) (app Q n k T') = dL k rest T T' := by
  rw [app_sub, ← dL_sub k rest]
  unfold dL
  rw [app_norm h]

theorem app_iso_zero {Q : ND ℝ} {r n k : ℕ} {rest : List ℕ} (h : Orthn (range (r * n)) k fun t j => Q.get [j, t])
    (T : ℕ → List ℕ → ℝ) : dL r (n :: rest) (app Q n k T) zL = dL k rest T zL := by
  unfold dL
  rw [app_norm h]

theorem app_change {M M' : ND ℝ} {r n k : ℕ} {rest : List ℕ} (hM : M.shape = [r * n, k]) (T : ℕ → List ℕ → ℝ) :
    dL r (n :: rest) (app M n k T) (app M' n k T) ≤ frobD M M' * dL k rest T zL := by
  refine (Real.sqrt_le_left (mul_nonneg (frobD_nonneg _ _) (dL_nonneg _ _ _ _))).2 ?_
  rw [mul_pow, dL_sq, frobD_mat hM]
  exact app_diff M M' r n k rest T

theorem app_bound {M : ND ℝ} {r n k : ℕ} {rest : List ℕ} (hM : M.shape = [r * n, k]) (T : ℕ → List ℕ → ℝ) :
    dL r (n :: rest) (app M n k T) zL ≤ frobN M * dL k rest T zL := by
  have h := app_change (M' := ND.zeros [r * n, k]) (rest := rest) hM T
  have e : frobD M (ND.zeros [r * n, k]) = frobN M := by
    unfold frobD frobN distSq normSq
    congr 1
    exact sumIdx_congr fun i _ => by rw [ND.zeros_get, sub_zero]
  rw [e] at h
  refine le_trans (le_of_eq (dL_congr (fun _ _ _ _ => rfl) fun x _ p hp => ?_)) h
  match p, hp with
  | i :: q, _ => simp [app, zL, ND.zeros_get]

theorem frobN_reshape {A : ND ℝ} {s : List ℕ} (hs : s.prod = A.shape.prod) : frobN (A.reshape s) = frobN A := by
  unfold frobN; rw [normSq_reshape' hs]

theorem frobD_reshape {A B : ND ℝ} (hB : B.shape = A.shape) {s : List ℕ} (hs : s.prod = A.shape.prod) :
    frobD (A.reshape s) (B.reshape s) = frobD A B := by
  unfold frobD; rw [distSq_reshape hB hs]

/-- The first core of a train is a matrix applied to the rest. -/
theorem valL_cons {C : ND ℝ} {a n t : ℕ} (hC : C.shape = [a, n, t]) (Cs : List (ND ℝ)) {rest : List ℕ} (x : ℕ) (p : List ℕ)
    (hp : InR (n :: rest) p) : valL (C :: Cs) x p = app (C.reshape [a * n, t]) n t (valL Cs) x p := by
  match p, hp with
  | i :: q, hp =>
    show ttVal (C :: Cs) (i :: q) x 0 = ∑ w ∈ range t, _
    rw [ttVal_cons hC]
    exact sum_congr rfl fun w _ => by rw [ND.reshape_merge12 hC x i w hp.1]; rfl

theorem valL_cons' {Q : ND ℝ} {a n k : ℕ} (hQ : Q.shape = [a * n, k]) (Cs : List (ND ℝ)) {rest : List ℕ} (x : ℕ) (p : List ℕ)
    (hp : InR (n :: rest) p) : valL (Q.reshape [a, n, k] :: Cs) x p = app Q n k (valL Cs) x p := by
  match p, hp with
  | i :: q, hp =>
    show ttVal (Q.reshape [a, n, k] :: Cs) (i :: q) x 0 = ∑ w ∈ range k, _
    rw [ttVal_cons (r := a) (n := n) (t := k) rfl]
    exact sum_congr rfl fun w _ => by rw [ND.reshape_split12 hQ x i w hp.1]; rfl

/-- The norm of a train is at most the product of the norms of its cores. -/
theorem valL_norm : ∀ {Cs : List (ND ℝ)} {a : ℕ}, TTChain a Cs 1 →
    dL a (coreShape Cs) (valL Cs) zL ≤ (Cs.map frobN).prod
  | [], a, h => by
    cases h
    unfold dL distL zL valL
    rw [show coreShape ([] : List (ND ℝ)) = [] from rfl, sum_range_one]
    show √ ((ttVal [] [] 0 0 - 0) ^ 2) ≤ 1
    rw [show (ttVal ([] : List (ND ℝ)) [] 0 0) = 1 from rfl]
    norm_num
  | C :: Cs, a, ⟨n, t, hC, hCs⟩ => by
    have IH := valL_norm hCs
    have e : coreShape (C :: Cs) = n :: coreShape Cs := by
      show C.dim 1 :: _ = _
      rw [(dim_of_shape3 hC).2.1]; rfl
    rw [e, dL_congr (fun x _ p hp => valL_cons hC Cs x p hp) (fun _ _ _ _ => rfl), List.map_cons, List.prod_cons]
    refine (app_bound rfl _).trans ?_
    rw [frobN_reshape (by rw [hC]; simp [mul_assoc])]
    exact mul_le_mul_of_nonneg_left IH (frobN_nonneg _)

/-- A matrix applied to the rows. -/
theorem mat_bound {R : ND ℝ} {k t : ℕ} (hR : R.shape = [k, t]) (sh : List ℕ) (F : ℕ → List ℕ → ℝ) :
    dL k sh (fun z q => ∑ w ∈ range t, R.get [z, w] * F w q) zL ≤ frobN R * dL t sh F zL := by
  refine (Real.sqrt_le_left (mul_nonneg (frobN_nonneg _) (dL_nonneg _ _ _ _))).2 ?_
  rw [mul_pow, dL_sq, frobN_mat hR, distL_swap, distL_swap, mul_sum]
  refine sum_le_sum fun q _ => ?_
  rw [sum_mul]
  refine sum_le_sum fun z _ => ?_
  simp only [zL, sub_zero]
  exact sum_mul_sq_le_sq_mul_sq _ _ _

theorem frobN_mul_core {R D : ND ℝ} {k t m t' : ℕ} (hR : R.shape = [k, t]) (hD : D.shape = [t, m, t']) :
    frobN (ND.es_ij_jkl_ikl R D) ≤ frobN R * frobN D := by
  rw [← dL_ent_zero (ND.es_ij_jkl_ikl_shape hR hD), ← dL_ent_zero hD]
  refine le_trans (le_of_eq (dL_congr (fun z _ q hq => ?_) (fun _ _ _ _ => rfl))) (mat_bound hR [m, t'] (entL D))
  match q, hq with
  | [j, u], _ => exact ND.es_ij_jkl_ikl_get hR hD z j u

theorem IsQR.frobN_R {M Q R : ND ℝ} {m n : ℕ} (hM : M.shape = [m, n]) (h : IsQR M Q R m n) : frobN R = frobN M := by
  have e : frobN R ^ 2 = frobN M ^ 2 := by
    rw [frobN_mat h.shapeR, frobN_mat hM]
    have ho : Orthn (range m) (min m n) fun t j => Q.get [j, t] := h.orth
    rw [sum_comm, sum_comm (s := range m)]
    refine sum_congr rfl fun j hj => ?_
    rw [← ho.parseval fun t => R.get [t, j]]
    refine sum_congr rfl fun i hi => ?_
    rw [← h.mul i (by simpa using hi) j (by simpa using hj)]
    congr 1
    exact sum_congr rfl fun t _ => by ring
  exact (pow_left_inj₀ (frobN_nonneg _) (frobN_nonneg _) two_ne_zero).1 e

theorem frobD_triangle {A B C : ND ℝ} (hB : B.shape = A.shape) : frobD A C ≤ frobD A B + frobD B C := by
  unfold frobD distSq
  rw [hB]
  simp only [sumIdx_eq_sum]
  refine le_trans (le_of_eq ?_) (sqrt_sum_add_le (idxSet A.shape) (fun z => A.get z - B.get z) (fun z => B.get z - C.get z))
  congr 1
  exact sum_congr rfl fun z _ => by ring

theorem frobD_symm {A B : ND ℝ} (hB : B.shape = A.shape) : frobD A B = frobD B A := by
  unfold frobD distSq
  rw [hB]
  congr 1
  exact sumIdx_congr fun i _ => by ring

theorem frobD_self (A : ND ℝ) : frobD A A = 0 := by
  unfold frobD distSq
  rw [sumIdx_eq_zero fun _ _ => by simp, Real.sqrt_zero]

theorem frobN_le {A B : ND ℝ} (hB : B.shape = A.shape) : frobN B ≤ frobN A + frobD A B := by
  unfold frobN frobD distSq normSq
  rw [hB]
  simp only [sumIdx_eq_sum]
  refine le_trans (le_of_eq ?_) ((sqrt_sum_add_le (idxSet A.shape) (fun z => A.get z) (fun z => B.get z - A.get z)).trans
    (le_of_eq ?_))
  · congr 1
    exact sum_congr rfl fun z _ => by ring
  · congr 2
    exact sum_congr rfl fun z _ => by ring

/-- A computed core and the exact left-orthogonal core behind it. -/
def Partner (ε : ℝ) (O P : ND ℝ) : Prop := P.shape = O.shape ∧ frobD O P ≤ ε ∧ P.LeftOrthogonal

theorem orth_arith {ε b : ℝ} (hε : 0 ≤ ε) (hb : 0 ≤ b) (N : ℕ) :
    ε * b + N * ε * (1 + ε) ^ N * ((1 + ε) * b) ≤ (N + 1 : ℕ) * ε * (1 + ε) ^ (N + 1) * b ∧
    ε * b + 2 * N * ε * (1 + ε) ^ (2 * N) * ((1 + ε) * b) + ε * ((1 + ε) ^ (2 * N) * ((1 + ε) * b))
      ≤ 2 * (N + 1 : ℕ) * ε * (1 + ε) ^ (2 * (N + 1)) * b := by
  have h1 : 1 ≤ (1 + ε) ^ (N + 1) := one_le_pow₀ (by linarith)
  have h2 : 1 ≤ (1 + ε) ^ (2 * (N + 1)) := one_le_pow₀ (by linarith)
  have h3 : (1 + ε) ^ (2 * N) * (1 + ε) ≤ (1 + ε) ^ (2 * (N + 1)) := by
    rw [← pow_succ]; exact pow_le_pow_right₀ (by linarith) (by omega)
  have e1 : (1 + ε) ^ N * (1 + ε) = (1 + ε) ^ (N + 1) := (pow_succ _ _).symm
  have hεb := mul_nonneg hε hb
  have hN : (0 : ℝ) ≤ N := Nat.cast_nonneg N
  constructor
  · push_cast
    have := mul_le_mul_of_nonneg_left h1 hεb
    calc ε * b + N * ε * (1 + ε) ^ N * ((1 + ε) * b) = ε * b * 1 + N * ε * ((1 + ε) ^ N * (1 + ε)) * b := by ring
      _ ≤ ε * b * (1 + ε) ^ (N + 1) + N * ε * (1 + ε) ^ (N + 1) * b := by rw [e1]; linarith
      _ = _ := by ring
  · have e2 : ε * b + 2 * N * ε * (1 + ε) ^ (2 * N) * ((1 + ε) * b) + ε * ((1 + ε) ^ (2 * N) * ((1 + ε) * b))
        = ε * b * 1 + (2 * N + 1) * (ε * b) * ((1 + ε) ^ (2 * N) * (1 + ε)) := by ring
    rw [e2]
    have h4 := mul_le_mul_of_nonneg_left h2 hεb
    have h5 := mul_le_mul_of_nonneg_left h3 (show 0 ≤ (2 * N + 1) * (ε * b) by positivity)
    push_cast
    linarith

theorem coreShape_cons3 {C : ND ℝ} {a n t : ℕ} (hC : C.shape = [a, n, t]) (Cs : List (ND ℝ)) :
    coreShape (C :: Cs) = n :: coreShape Cs := by
  show C.dim 1 :: _ = _
  rw [(dim_of_shape3 hC).2.1]; rfl

theorem orthLoop_approx {la : LinAlg} {ε : ℝ} (hε : 0 ≤ ε) (hq : la.QRApprox ε) : ∀ (Cs : List (ND ℝ)) (C : ND ℝ) (a n t : ℕ),
    C.shape = [a, n, t] → TTChain t Cs 1 → 0 < a → 0 < n → (∀ D ∈ Cs, 0 < D.dim 0 ∧ 0 < D.dim 1) →
    ∃ Os Ps L, TT.orthLoop la none (C :: Cs) = .ok (Os ++ [L]) ∧ TTChain a (Os ++ [L]) 1 ∧ TTChain a (Ps ++ [L]) 1 ∧
      coreShape (Os ++ [L]) = coreShape (C :: Cs) ∧ coreShape (Ps ++ [L]) = coreShape (C :: Cs) ∧
      List.Forall₂ (Partner ε) Os Ps ∧ Os.length = Cs.length ∧
      (∀ k < Cs.length, bondOf (Os ++ [L]) (k + 1)
        = min (bondOf (Os ++ [L]) k * (coreShape (C :: Cs)).getD k 0) (bondOf (C :: Cs) (k + 1))) ∧
      frobN L ≤ (1 + ε) ^ Cs.length * ((C :: Cs).map frobN).prod ∧
      dL a (coreShape (C :: Cs)) (valL (C :: Cs)) (valL (Ps ++ [L]))
        ≤ Cs.length * ε * (1 + ε) ^ Cs.length * ((C :: Cs).map frobN).prod ∧
      dL a (coreShape (C :: Cs)) (valL (Os ++ [L])) zL ≤ (1 + ε) ^ (2 * Cs.length) * ((C :: Cs).map frobN).prod ∧
      dL a (coreShape (C :: Cs)) (valL (C :: Cs)) (valL (Os ++ [L]))
        ≤ 2 * Cs.length * ε * (1 + ε) ^ (2 * Cs.length) * ((C :: Cs).map frobN).prod
  | [], C, a, n, t, hC, hCs, ha, hn, hpos => by
    have h0 : dL a (coreShape [C]) (valL [C]) (valL [C]) = 0 := by
      unfold dL distL
      simp [sumIdx_eq_sum]
    refine ⟨[], [], C, rfl, ⟨n, t, hC, hCs⟩, ⟨n, t, hC, hCs⟩, rfl, rfl, .nil, rfl, fun k hk => by simp at hk, by simp, ?_, ?_, ?_⟩
    · show dL a (coreShape [C]) (valL [C]) (valL [C]) ≤ _
      rw [h0]; simp
    · show dL a (coreShape [C]) (valL [C]) zL ≤ _
      have := valL_norm (Cs := [C]) (a := a) ⟨n, t, hC, hCs⟩
      simpa using this
    · show dL a (coreShape [C]) (valL [C]) (valL [C]) ≤ _
      rw [h0]; simp
  | D :: Ds, C, a, n, t, hC, ⟨m, t', hD, hDs⟩, ha, hn, hpos => by
    obtain ⟨d0, d1, d2⟩ := dim_of_shape3 hC
    obtain ⟨e0, e1, e2⟩ := dim_of_shape3 hD
    have ht : 0 < t := by have := (hpos D List.mem_cons_self).1; rwa [e0] at this
    have hm : 0 < m := by have := (hpos D List.mem_cons_self).2; rwa [e1] at this
    obtain ⟨q1, M', Q', hM', q2, q3, q4⟩ := hq (C.reshape [a * n, t]) (a * n) t rfl
    generalize hQR : la.qr (C.reshape [a * n, t]) = QR at q1 q2 q3 q4
    obtain ⟨Q, R⟩ := QR
    simp only at q1 q2 q3 q4
    have q1' := q2.shapeQ
    have qR := q2.shapeR
    have qm := q2.mul
    have qo := q2.orth
    have qn := q2.frobN_R hM'
    obtain ⟨k, hk⟩ : ∃ k, k = min (a * n) t := ⟨_, rfl⟩
    rw [← hk] at q1 q1' qR qm qo
    have han : 0 < a * n := Nat.mul_pos ha hn
    have hkpos : 0 < k := by rw [hk]; exact lt_min han ht
    have hre : ND.reshapeInfer Q a n = .ok (Q.reshape [a, n, k]) := by
      have hsz : Q.size = a * n * k := by simp [ND.size, q1]
      unfold ND.reshapeInfer
      rw [if_neg (by omega), if_neg (by rw [hsz]; simp), hsz, Nat.mul_div_cancel_left _ han]
    have hD' : (ND.es_ij_jkl_ikl R D).shape = [k, m, t'] := ND.es_ij_jkl_ikl_shape qR hD
    obtain ⟨Os, Ps, L, o1, o2, o2', o3, o3', o4, o5, o6, o7, o8, o9, o10⟩ := orthLoop_approx hε hq Ds (ND.es_ij_jkl_ikl R D) k m t'
      hD' hDs hkpos hm (fun E hE => hpos E (List.mem_cons_of_mem _ hE))
    have hcs : coreShape (ND.es_ij_jkl_ikl R D :: Ds) = coreShape (D :: Ds) := by
      rw [coreShape_cons3 hD', coreShape_cons3 hD]
    rw [hcs] at o3 o3' o6 o8 o9 o10
    have hOrth : Orthn (range (a * n)) k fun t j => Q'.get [j, t] := qo
    -- norms
    obtain ⟨c, hc⟩ : ∃ c, c = frobN C := ⟨_, rfl⟩
    have hc0 : 0 ≤ c := by rw [hc]; exact frobN_nonneg _
    have hcM : frobN (C.reshape [a * n, t]) = c := by rw [hc, frobN_reshape (by rw [hC]; simp [mul_assoc])]
    rw [hcM] at q3
    obtain ⟨v, hv⟩ : ∃ v, v = ((D :: Ds).map frobN).prod := ⟨_, rfl⟩
    have hv0 : 0 ≤ v := by
      rw [hv]; exact List.prod_nonneg fun x hx => by obtain ⟨E, _, rfl⟩ := List.mem_map.1 hx; exact frobN_nonneg _
    have hM'n : frobN M' ≤ (1 + ε) * c := by
      have := frobN_le (A := C.reshape [a * n, t]) (B := M') hM'
      rw [hcM] at this; linarith
    have hRD : ((ND.es_ij_jkl_ikl R D :: Ds).map frobN).prod ≤ (1 + ε) * (c * v) := by
      rw [List.map_cons, List.prod_cons]
      rw [hv, List.map_cons, List.prod_cons]
      have h1 := (frobN_mul_core qR hD).trans (mul_le_mul_of_nonneg_right (qn.le.trans hM'n) (frobN_nonneg D))
      have h2 : 0 ≤ (Ds.map frobN).prod := List.prod_nonneg fun x hx => by
        obtain ⟨E, _, rfl⟩ := List.mem_map.1 hx; exact frobN_nonneg _
      have h3 := mul_le_mul_of_nonneg_right h1 h2
      linarith
    have hb : 0 ≤ c * v := mul_nonneg hc0 hv0
    have hprod : ((C :: D :: Ds).map frobN).prod = c * v := by rw [List.map_cons, List.prod_cons, hc, hv]
    rw [hprod]
    generalize hB' : ((ND.es_ij_jkl_ikl R D :: Ds).map frobN).prod = B' at hRD o7 o8 o9 o10
    -- values
    have hvn : dL t (coreShape (D :: Ds)) (valL (D :: Ds)) zL ≤ v := by rw [hv]; exact valL_norm ⟨m, t', hD, hDs⟩
    have hCv : ∀ x < a, ∀ p, InR (n :: coreShape (D :: Ds)) p →
        valL (C :: D :: Ds) x p = app (C.reshape [a * n, t]) n t (valL (D :: Ds)) x p :=
      fun x _ p hp => valL_cons hC _ x p hp
    have hOv : ∀ x < a, ∀ p, InR (n :: coreShape (D :: Ds)) p →
        valL (Q.reshape [a, n, k] :: (Os ++ [L])) x p = app Q n k (valL (Os ++ [L])) x p :=
      fun x _ p hp => valL_cons' q1 _ x p hp
    have hPv : ∀ x < a, ∀ p, InR (n :: coreShape (D :: Ds)) p →
        valL (Q'.reshape [a, n, k] :: (Ps ++ [L])) x p = app Q' n k (valL (Ps ++ [L])) x p :=
      fun x _ p hp => valL_cons' q1' _ x p hp
    have hRv : ∀ z q, InR (coreShape (D :: Ds)) q →
        valL (ND.es_ij_jkl_ikl R D :: Ds) z q = ∑ w ∈ range t, R.get [z, w] * valL (D :: Ds) w q := by
      intro z q hq
      rw [coreShape_cons3 hD] at hq
      match q, hq with
      | j :: q, hq =>
        show ttVal _ _ _ _ = ∑ w ∈ range t, R.get [z, w] * ttVal _ _ _ _
        rw [ttVal_cons hD']
        have e1 : ∀ u ∈ range t', (ND.es_ij_jkl_ikl R D).get [z, j, u] * ttVal Ds q u 0
            = ∑ w ∈ range t, R.get [z, w] * (D.get [w, j, u] * ttVal Ds q u 0) := by
          intro u _
          rw [ND.es_ij_jkl_ikl_get qR hD, sum_mul]
          exact sum_congr rfl fun w _ => by ring
        rw [sum_congr rfl e1, sum_comm]
        exact sum_congr rfl fun w _ => by rw [ttVal_cons hD, mul_sum]
    have hM'v : ∀ x < a, ∀ p, InR (n :: coreShape (D :: Ds)) p → app M' n t (valL (D :: Ds)) x p
        = app Q' n k (valL (ND.es_ij_jkl_ikl R D :: Ds)) x p := by
      intro x hx p hp
      match p, hp with
      | i :: q, hp =>
        show ∑ w ∈ range t, _ = ∑ z ∈ range k, _
        have e : ∀ z ∈ range k, Q'.get [x * n + i, z] * valL (ND.es_ij_jkl_ikl R D :: Ds) z q
            = ∑ w ∈ range t, Q'.get [x * n + i, z] * R.get [z, w] * valL (D :: Ds) w q := by
          intro z _
          rw [hRv z q hp.2, mul_sum]
          exact sum_congr rfl fun w _ => by ring
        rw [sum_congr rfl e, sum_comm]
        refine sum_congr rfl fun w hw => ?_
        rw [← qm (x * n + i) ((ND.lt_mul_iff hp.1).2 hx) w (by simpa using hw), sum_mul]
    have hfirst : dL a (n :: coreShape (D :: Ds)) (app (C.reshape [a * n, t]) n t (valL (D :: Ds)))
        (app Q' n k (valL (ND.es_ij_jkl_ikl R D :: Ds))) ≤ ε * (c * v) := by
      rw [dL_congr (F' := app (C.reshape [a * n, t]) n t (valL (D :: Ds))) (fun _ _ _ _ => rfl)
        fun x hx p hp => (hM'v x hx p hp).symm]
      refine (app_change rfl _).trans ?_
      calc _ ≤ (ε * c) * v := mul_le_mul q3 hvn (dL_nonneg _ _ _ _) (by positivity)
        _ = _ := by ring
    have hcs' : coreShape (C :: D :: Ds) = n :: coreShape (D :: Ds) := coreShape_cons3 hC _
    obtain ⟨a1, a2⟩ := orth_arith hε hb Ds.length
    have p1 : 0 ≤ Ds.length * ε * (1 + ε) ^ Ds.length := by positivity
    have p2 : (0 : ℝ) ≤ (1 + ε) ^ (2 * Ds.length) := by positivity
    have p3 : 0 ≤ 2 * Ds.length * ε * (1 + ε) ^ (2 * Ds.length) := by positivity
    refine ⟨Q.reshape [a, n, k] :: Os, Q'.reshape [a, n, k] :: Ps, L, ?_, ⟨n, k, rfl, o2⟩, ⟨n, k, rfl, o2'⟩, ?_, ?_,
      .cons ⟨rfl, ?_, ?_⟩ o4, by simp [o5], ?_, ?_, ?_, ?_, ?_⟩
    · rw [TT.orthLoop]
      rw [d0, d1, d2, hQR]
      dsimp only
      rw [hre]
      dsimp only
      rw [orthLoop_some, o1]; rfl
    · show n :: coreShape (Os ++ [L]) = _
      rw [o3, hcs']
    · show n :: coreShape (Ps ++ [L]) = _
      rw [o3', hcs']
    · rw [frobD_reshape (by rw [q1, q1']) (by rw [q1]; simp [mul_assoc])]; exact q4
    · intro x hx y hy
      have hx : x < k := hx
      have hy : y < k := hy
      show ∑ i ∈ range a, ∑ j ∈ range n, _ = _
      rw [← qo x hx y hy, range_mul_sum]
      refine sum_congr rfl fun i _ => sum_congr rfl fun j hj => ?_
      rw [ND.reshape_split12 q1' _ _ _ (by simpa using hj), ND.reshape_split12 q1' _ _ _ (by simpa using hj)]
    · intro j hj
      cases j with
      | zero =>
        show bondOf (Os ++ [L]) 0 = min ((Q.reshape [a, n, k]).dim 0 * C.dim 1) (D.dim 0)
        have : bondOf (Os ++ [L]) 0 = k := by
          match Os, o2 with
          | [], ⟨n', r', hO, _⟩ => exact (dim_of_shape3 hO).1
          | O :: Os, ⟨n', r', hO, _⟩ => exact (dim_of_shape3 hO).1
        rw [this, d1, e0, hk]; rfl
      | succ j =>
        have := o6 j (by simpa using hj)
        show bondOf (Os ++ [L]) (j + 1) = min (bondOf (Os ++ [L]) j * (coreShape (D :: Ds)).getD j 0) (bondOf Ds j)
        rw [this]; rfl
    · rw [List.length_cons, pow_succ]
      refine o7.trans ?_
      have := mul_le_mul_of_nonneg_left hRD (show 0 ≤ (1 + ε) ^ Ds.length by positivity)
      linarith
    · rw [hcs', List.cons_append, dL_congr hCv hPv, List.length_cons]
      refine (dL_triangle _ _ _ (app Q' n k (valL (ND.es_ij_jkl_ikl R D :: Ds))) _).trans ?_
      rw [app_iso hOrth]
      have := mul_le_mul_of_nonneg_left hRD p1
      linarith
    · rw [hcs', List.cons_append, dL_congr hOv (G' := zL) (fun _ _ _ _ => rfl), List.length_cons]
      have h1 := dL_triangle a (n :: coreShape (D :: Ds)) (app Q n k (valL (Os ++ [L]))) (app Q' n k (valL (Os ++ [L]))) zL
      rw [app_iso_zero hOrth] at h1
      have h2 := app_change (M' := Q') (r := a) (n := n) (rest := coreShape (D :: Ds)) q1 (valL (Os ++ [L]))
      have h3 := mul_le_mul_of_nonneg_right q4 (dL_nonneg k (coreShape (D :: Ds)) (valL (Os ++ [L])) zL)
      have h4 := mul_le_mul_of_nonneg_left hRD p2
      have h5 := mul_le_mul_of_nonneg_left (o9.trans h4) (show 0 ≤ 1 + ε by linarith)
      have e : (1 + ε) ^ (2 * (Ds.length + 1)) * (c * v) = (1 + ε) * ((1 + ε) ^ (2 * Ds.length) * ((1 + ε) * (c * v))) := by ring
      rw [e]
      linarith
    · rw [hcs', List.cons_append, dL_congr hCv hOv, List.length_cons]
      have h0 := dL_triangle a (n :: coreShape (D :: Ds)) (app (C.reshape [a * n, t]) n t (valL (D :: Ds)))
        (app Q' n k (valL (ND.es_ij_jkl_ikl R D :: Ds))) (app Q n k (valL (Os ++ [L])))
      have h1 := dL_triangle a (n :: coreShape (D :: Ds)) (app Q' n k (valL (ND.es_ij_jkl_ikl R D :: Ds)))
        (app Q' n k (valL (Os ++ [L]))) (app Q n k (valL (Os ++ [L])))
      rw [app_iso hOrth] at h1
      have h2 := app_change (M' := Q') (r := a) (n := n) (rest := coreShape (D :: Ds)) q1 (valL (Os ++ [L]))
      rw [dL_symm] at h2
      have h3 := mul_le_mul_of_nonneg_right q4 (dL_nonneg k (coreShape (D :: Ds)) (valL (Os ++ [L])) zL)
      have h4 := mul_le_mul_of_nonneg_left hRD p2
      have h5 := mul_le_mul_of_nonneg_left (o9.trans h4) hε
      have h6 := mul_le_mul_of_nonneg_left hRD p3
      linarith

end TTS
