import Verif.Model.FloatOrth
import Verif.Proofs.FloatPsi
import Verif.Proofs.FloatDot
import Verif.Proofs.ApproxOrth
import Verif.Proofs.ApproxStream

/-! Orthogonalisation with an inexact QR routine and rounded contractions. -/

namespace TTS
open Finset ND

theorem frobN_abs (A : ND ℝ) : frobN A.abs = frobN A := by
  unfold frobN normSq
  rw [ND.abs_shape]
  congr 1
  exact sumIdx_congr fun i _ => by rw [ND.abs_get, sq_abs]

theorem frobD_of_entries {A B M : ND ℝ} {η : ℝ} (hη : 0 ≤ η) (hM : M.shape = A.shape)
    (h : ∀ i, |A.get i - B.get i| ≤ η * M.get i) : frobD A B ≤ η * frobN M := by
  unfold frobD frobN
  rw [← Real.sqrt_sq hη, ← Real.sqrt_mul (sq_nonneg η)]
  refine Real.sqrt_le_sqrt ?_
  unfold distSq normSq
  rw [hM, sumIdx_eq_sum, sumIdx_eq_sum, mul_sum]
  refine sum_le_sum fun i _ => ?_
  rw [← mul_pow, ← sq_abs]
  exact pow_le_pow_left₀ (abs_nonneg _) (h i) 2

/-- A rounded contraction of a matrix with a core. -/
theorem flMulCore {u : ℝ} (hu : 0 ≤ u) {R D D' : ND ℝ} {k t m t' : ℕ} (hR : R.shape = [k, t]) (hD : D.shape = [t, m, t'])
    (h : FlEinsum u [([.i, .j], R), ([.j, .k, .l], D)] [.i, .k, .l] D') :
    D'.shape = [k, m, t'] ∧ frobD (ND.es_ij_jkl_ikl R D) D' ≤ flErr u t * (frobN R * frobN D) := by
  have e : einsumTerms [([Lb.i, .j], R), ([Lb.j, .k, .l], D)] [.i, .k, .l] = t := by
    simp [einsumTerms, lbSummed, lbDim, lbGet?, hR, hD, -List.getD_eq_getElem?_getD]
  have h2 := NDNear.einsum2 hu le_rfl le_rfl (NDNear.rfl' R) (NDNear.rfl' D) _ _ _ h
  rw [e, mul_one, mul_one] at h2
  have hη : 0 ≤ flErr u t := sub_nonneg.2 (one_le_pow_u hu _)
  have hs : (ND.es_ij_jkl_ikl R D).shape = [k, m, t'] := ND.es_ij_jkl_ikl_shape hR hD
  refine ⟨h2.1.trans hs, ?_⟩
  have hM : (ND.es_ij_jkl_ikl R.abs D.abs).shape = (ND.es_ij_jkl_ikl R D).shape := h2.2.1
  refine (frobD_of_entries hη hM fun i => ?_).trans (mul_le_mul_of_nonneg_left ?_ hη)
  · rw [abs_sub_comm]; exact (h2.2.2 i).1
  · have := frobN_mul_core (R := R.abs) (D := D.abs) (by rw [ND.abs_shape]; exact hR) (by rw [ND.abs_shape]; exact hD)
    rwa [frobN_abs, frobN_abs] at this

theorem flOrthLoop_some {u : ℝ} {la : LinAlg} {R C : ND ℝ} {Cs : List (ND ℝ)} {res : Except PyErr (List (ND ℝ))}
    (h : TT.FlOrthLoop u la (some R) (C :: Cs) res) :
    ∃ C', FlEinsum u [([.i, .j], R), ([.j, .k, .l], C)] [.i, .k, .l] C' ∧ TT.FlOrthLoop u la none (C' :: Cs) res := by
  cases Cs with
  | nil =>
    obtain ⟨C', h1, h2⟩ := h
    exact ⟨C', h1, C', rfl, h2⟩
  | cons D Ds =>
    obtain ⟨C', h1, h2⟩ := h
    exact ⟨C', h1, C', rfl, h2⟩

theorem flOrthLoop_approx {u : ℝ} (hu : 0 ≤ u) {la : LinAlg} {ε η ρ : ℝ} (hε : 0 ≤ ε) (hη : 0 ≤ η)
    (hρ : ρ = ε + (1 + ε) * η) (hq : la.QRApprox ε) : ∀ (Cs : List (ND ℝ)) (C : ND ℝ) (a n t : ℕ),
    C.shape = [a, n, t] → TTChain t Cs 1 → 0 < a → 0 < n → (∀ D ∈ Cs, 0 < D.dim 0 ∧ 0 < D.dim 1) →
    (∀ D ∈ Cs, flErr u (D.dim 0) ≤ η) → ∀ res, TT.FlOrthLoop u la none (C :: Cs) res →
    ∃ Os Ps L, res = .ok (Os ++ [L]) ∧ TTChain a (Os ++ [L]) 1 ∧ TTChain a (Ps ++ [L]) 1 ∧
      coreShape (Os ++ [L]) = coreShape (C :: Cs) ∧ coreShape (Ps ++ [L]) = coreShape (C :: Cs) ∧
      List.Forall₂ (Partner ε) Os Ps ∧ Os.length = Cs.length ∧
      (∀ k < Cs.length, bondOf (Os ++ [L]) (k + 1)
        = min (bondOf (Os ++ [L]) k * (coreShape (C :: Cs)).getD k 0) (bondOf (C :: Cs) (k + 1))) ∧
      frobN L ≤ (1 + ρ) ^ Cs.length * ((C :: Cs).map frobN).prod ∧
      dL a (coreShape (C :: Cs)) (valL (C :: Cs)) (valL (Ps ++ [L]))
        ≤ Cs.length * ρ * (1 + ρ) ^ Cs.length * ((C :: Cs).map frobN).prod ∧
      dL a (coreShape (C :: Cs)) (valL (Os ++ [L])) zL ≤ (1 + ρ) ^ (2 * Cs.length) * ((C :: Cs).map frobN).prod ∧
      dL a (coreShape (C :: Cs)) (valL (C :: Cs)) (valL (Os ++ [L]))
        ≤ 2 * Cs.length * ρ * (1 + ρ) ^ (2 * Cs.length) * ((C :: Cs).map frobN).prod
  | [], C, a, n, t, hC, hCs, ha, hn, hpos, _, res, hres => by
    obtain ⟨C', rfl, rfl⟩ := hres
    have h0 : dL a (coreShape [C']) (valL [C']) (valL [C']) = 0 := by
      unfold dL distL
      simp [sumIdx_eq_sum]
    refine ⟨[], [], C', rfl, ⟨n, t, hC, hCs⟩, ⟨n, t, hC, hCs⟩, rfl, rfl, .nil, rfl, fun k hk => by simp at hk, by simp, ?_, ?_, ?_⟩
    · show dL a (coreShape [C']) (valL [C']) (valL [C']) ≤ _
      rw [h0]; simp
    · show dL a (coreShape [C']) (valL [C']) zL ≤ _
      have := valL_norm (Cs := [C']) (a := a) ⟨n, t, hC, hCs⟩
      simpa using this
    · show dL a (coreShape [C']) (valL [C']) (valL [C']) ≤ _
      rw [h0]; simp
  | D :: Ds, C, a, n, t, hC, ⟨m, t', hD, hDs⟩, ha, hn, hpos, hfl, res, hres => by
    have hρ0 : 0 ≤ ρ := by rw [hρ]; positivity
    have hερ : ε ≤ ρ := by rw [hρ]; nlinarith
    obtain ⟨d0, d1, d2⟩ := dim_of_shape3 hC
    obtain ⟨e0, e1, e2⟩ := dim_of_shape3 hD
    have ht : 0 < t := by have := (hpos D List.mem_cons_self).1; rwa [e0] at this
    have hm : 0 < m := by have := (hpos D List.mem_cons_self).2; rwa [e1] at this
    have hηD : flErr u t ≤ η := by have := hfl D List.mem_cons_self; rwa [e0] at this
    obtain ⟨C', hC', hres⟩ := hres
    cases hC'
    rw [d0, d1, d2] at hres
    obtain ⟨q1, M', Q', hM', q2, q3, q4⟩ := hq (C.reshape [a * n, t]) (a * n) t rfl
    generalize hQR : la.qr (C.reshape [a * n, t]) = QR at q1 q2 q3 q4 hres
    obtain ⟨Q, R⟩ := QR
    simp only at q1 q2 q3 q4 hres
    have q1' := q2.shapeQ
    have qR := q2.shapeR
    have qm := q2.mul
    have qo := q2.orth
    have qn := q2.frobN_R hM'
    obtain ⟨k, hk⟩ : ∃ k, k = min (a * n) t := ⟨_, rfl⟩
    rw [← hk] at q1 q1' qR qm qo
    have han : 0 < a * n := Nat.mul_pos ha hn
    have hkpos : 0 < k := by rw [hk]; exact lt_min han ht
    have hre : ND.reshapeInfer Q a n = .ok (Q.reshape [a, n, k]) := by
      have hsz : Q.size = a * n * k := by simp [ND.size, q1]
      unfold ND.reshapeInfer
      rw [if_neg (by omega), if_neg (by rw [hsz]; simp), hsz, Nat.mul_div_cancel_left _ han]
    rw [hre] at hres
    dsimp only at hres
    obtain ⟨rest, hrest, rfl⟩ := hres
    obtain ⟨E, hE, hrest⟩ := flOrthLoop_some hrest
    obtain ⟨hE', hEd⟩ := flMulCore hu qR hD hE
    have hD' : (ND.es_ij_jkl_ikl R D).shape = [k, m, t'] := ND.es_ij_jkl_ikl_shape qR hD
    obtain ⟨Os, Ps, L, rfl, o2, o2', o3, o3', o4, o5, o6, o7, o8, o9, o10⟩ := flOrthLoop_approx hu hε hη hρ hq Ds E k m t'
      hE' hDs hkpos hm (fun E hE => hpos E (List.mem_cons_of_mem _ hE)) (fun E hE => hfl E (List.mem_cons_of_mem _ hE)) rest hrest
    have hcs : coreShape (E :: Ds) = coreShape (D :: Ds) := by
      rw [coreShape_cons3 hE', coreShape_cons3 hD]
    rw [hcs] at o3 o3' o6 o8 o9 o10
    have hOrth : Orthn (range (a * n)) k fun t j => Q'.get [j, t] := qo
    -- norms
    obtain ⟨c, hc⟩ : ∃ c, c = frobN C := ⟨_, rfl⟩
    have hc0 : 0 ≤ c := by rw [hc]; exact frobN_nonneg _
    have hcM : frobN (C.reshape [a * n, t]) = c := by rw [hc, frobN_reshape (by rw [hC]; simp [mul_assoc])]
    rw [hcM] at q3
    obtain ⟨w, hw⟩ : ∃ w, w = (Ds.map frobN).prod := ⟨_, rfl⟩
    have hw0 : 0 ≤ w := by
      rw [hw]; exact List.prod_nonneg fun x hx => by obtain ⟨E, _, rfl⟩ := List.mem_map.1 hx; exact frobN_nonneg _
    obtain ⟨v, hv⟩ : ∃ v, v = frobN D * w := ⟨_, rfl⟩
    have hv0 : 0 ≤ v := by rw [hv]; exact mul_nonneg (frobN_nonneg _) hw0
    have hv' : ((D :: Ds).map frobN).prod = v := by rw [List.map_cons, List.prod_cons, hv, hw]
    have hM'n : frobN M' ≤ (1 + ε) * c := by
      have := frobN_le (A := C.reshape [a * n, t]) (B := M') hM'
      rw [hcM] at this; linarith
    have hRn : frobN R ≤ (1 + ε) * c := qn.le.trans hM'n
    have hRDn : frobN R * frobN D * w ≤ (1 + ε) * (c * v) := by
      have := mul_le_mul_of_nonneg_right (mul_le_mul_of_nonneg_right hRn (frobN_nonneg D)) hw0
      rw [hv]; linarith
    have hEd2 : frobD (ND.es_ij_jkl_ikl R D) E * w ≤ η * ((1 + ε) * (c * v)) := by
      have h1 := mul_le_mul_of_nonneg_right (hEd.trans (mul_le_mul_of_nonneg_right hηD
        (mul_nonneg (frobN_nonneg R) (frobN_nonneg D)))) hw0
      have h2 := mul_le_mul_of_nonneg_left hRDn hη
      linarith
    have hEn : ((E :: Ds).map frobN).prod ≤ (1 + ρ) * (c * v) := by
      rw [List.map_cons, List.prod_cons, ← hw]
      have h1 := frobN_le (A := ND.es_ij_jkl_ikl R D) (B := E) (hE'.trans hD'.symm)
      have h2 := mul_le_mul_of_nonneg_right (h1.trans (add_le_add_left (frobN_mul_core qR hD) _)) hw0
      have e : (1 + ρ) * (c * v) = (1 + ε) * (c * v) + η * ((1 + ε) * (c * v)) := by rw [hρ]; ring
      rw [e]
      linarith
    have hb : 0 ≤ c * v := mul_nonneg hc0 hv0
    have hprod : ((C :: D :: Ds).map frobN).prod = c * v := by rw [List.map_cons, List.prod_cons, hv', hc]
    rw [hprod]
    generalize hB' : ((E :: Ds).map frobN).prod = B' at hEn o7 o8 o9 o10
    -- values
    have hvn : dL t (coreShape (D :: Ds)) (valL (D :: Ds)) zL ≤ v := by rw [← hv']; exact valL_norm ⟨m, t', hD, hDs⟩
    have hCv : ∀ x < a, ∀ p, InR (n :: coreShape (D :: Ds)) p →
        valL (C :: D :: Ds) x p = app (C.reshape [a * n, t]) n t (valL (D :: Ds)) x p :=
      fun x _ p hp => valL_cons hC _ x p hp
    have hOv : ∀ x < a, ∀ p, InR (n :: coreShape (D :: Ds)) p →
        valL (Q.reshape [a, n, k] :: (Os ++ [L])) x p = app Q n k (valL (Os ++ [L])) x p :=
      fun x _ p hp => valL_cons' q1 _ x p hp
    have hPv : ∀ x < a, ∀ p, InR (n :: coreShape (D :: Ds)) p →
        valL (Q'.reshape [a, n, k] :: (Ps ++ [L])) x p = app Q' n k (valL (Ps ++ [L])) x p :=
      fun x _ p hp => valL_cons' q1' _ x p hp
    have hRv : ∀ z q, InR (coreShape (D :: Ds)) q →
        valL (ND.es_ij_jkl_ikl R D :: Ds) z q = ∑ w ∈ range t, R.get [z, w] * valL (D :: Ds) w q := by
      intro z q hq
      rw [coreShape_cons3 hD] at hq
      match q, hq with
      | j :: q, hq =>
        show ttVal _ _ _ _ = ∑ w ∈ range t, R.get [z, w] * ttVal _ _ _ _
        rw [ttVal_cons hD']
        have e1 : ∀ u ∈ range t', (ND.es_ij_jkl_ikl R D).get [z, j, u] * ttVal Ds q u 0
            = ∑ w ∈ range t, R.get [z, w] * (D.get [w, j, u] * ttVal Ds q u 0) := by
          intro u _
          rw [ND.es_ij_jkl_ikl_get qR hD, sum_mul]
          exact sum_congr rfl fun w _ => by ring
        rw [sum_congr rfl e1, sum_comm]
        exact sum_congr rfl fun w _ => by rw [ttVal_cons hD, mul_sum]
    have hM'v : ∀ x < a, ∀ p, InR (n :: coreShape (D :: Ds)) p → app M' n t (valL (D :: Ds)) x p
        = app Q' n k (valL (ND.es_ij_jkl_ikl R D :: Ds)) x p := by
      intro x hx p hp
      match p, hp with
      | i :: q, hp =>
        show ∑ w ∈ range t, _ = ∑ z ∈ range k, _
        have e : ∀ z ∈ range k, Q'.get [x * n + i, z] * valL (ND.es_ij_jkl_ikl R D :: Ds) z q
            = ∑ w ∈ range t, Q'.get [x * n + i, z] * R.get [z, w] * valL (D :: Ds) w q := by
          intro z _
          rw [hRv z q hp.2, mul_sum]
          exact sum_congr rfl fun w _ => by ring
        rw [sum_congr rfl e, sum_comm]
        refine sum_congr rfl fun w hw => ?_
        rw [← qm (x * n + i) ((ND.lt_mul_iff hp.1).2 hx) w (by simpa using hw), sum_mul]
    have hsecond : dL k (coreShape (D :: Ds)) (valL (ND.es_ij_jkl_ikl R D :: Ds)) (valL (E :: Ds)) ≤ η * ((1 + ε) * (c * v)) := by
      rw [coreShape_cons3 hD]
      have v1 : ∀ x < k, ∀ p, InR (m :: coreShape Ds) p → valL (ND.es_ij_jkl_ikl R D :: Ds) x p
          = app ((ND.es_ij_jkl_ikl R D).reshape [k * m, t']) m t' (valL Ds) x p := fun x _ p hp => valL_cons hD' _ x p hp
      have v2 : ∀ x < k, ∀ p, InR (m :: coreShape Ds) p → valL (E :: Ds) x p
          = app (E.reshape [k * m, t']) m t' (valL Ds) x p := fun x _ p hp => valL_cons hE' _ x p hp
      rw [dL_congr v1 v2]
      refine (app_change rfl _).trans (le_trans ?_ hEd2)
      rw [frobD_reshape (hE'.trans hD'.symm) (by rw [hD']; simp [mul_assoc]), hw]
      exact mul_le_mul_of_nonneg_left (valL_norm hDs) (frobD_nonneg _ _)
    have hfirst : dL a (n :: coreShape (D :: Ds)) (app (C.reshape [a * n, t]) n t (valL (D :: Ds)))
        (app Q' n k (valL (E :: Ds))) ≤ ρ * (c * v) := by
      refine (dL_triangle _ _ _ (app Q' n k (valL (ND.es_ij_jkl_ikl R D :: Ds))) _).trans ?_
      rw [app_iso hOrth]
      have h1 : dL a (n :: coreShape (D :: Ds)) (app (C.reshape [a * n, t]) n t (valL (D :: Ds)))
          (app Q' n k (valL (ND.es_ij_jkl_ikl R D :: Ds))) ≤ ε * (c * v) := by
        rw [dL_congr (F' := app (C.reshape [a * n, t]) n t (valL (D :: Ds))) (fun _ _ _ _ => rfl)
          fun x hx p hp => (hM'v x hx p hp).symm]
        refine (app_change rfl _).trans ?_
        calc _ ≤ (ε * c) * v := mul_le_mul q3 hvn (dL_nonneg _ _ _ _) (by positivity)
          _ = _ := by ring
      have e : ρ * (c * v) = ε * (c * v) + η * ((1 + ε) * (c * v)) := by rw [hρ]; ring
      rw [e]
      exact add_le_add h1 hsecond
    have hcs' : coreShape (C :: D :: Ds) = n :: coreShape (D :: Ds) := coreShape_cons3 hC _
    obtain ⟨a1, a2⟩ := orth_arith hρ0 hb Ds.length
    have p1 : 0 ≤ Ds.length * ρ * (1 + ρ) ^ Ds.length := by positivity
    have p2 : (0 : ℝ) ≤ (1 + ρ) ^ (2 * Ds.length) := by positivity
    have p3 : 0 ≤ 2 * Ds.length * ρ * (1 + ρ) ^ (2 * Ds.length) := by positivity
    refine ⟨Q.reshape [a, n, k] :: Os, Q'.reshape [a, n, k] :: Ps, L, rfl, ⟨n, k, rfl, o2⟩, ⟨n, k, rfl, o2'⟩, ?_, ?_,
      .cons ⟨rfl, ?_, ?_⟩ o4, by simp [o5], ?_, ?_, ?_, ?_, ?_⟩
    · show n :: coreShape (Os ++ [L]) = _
      rw [o3, hcs']
    · show n :: coreShape (Ps ++ [L]) = _
      rw [o3', hcs']
    · rw [frobD_reshape (by rw [q1, q1']) (by rw [q1]; simp [mul_assoc])]; exact q4
    · intro x hx y hy
      have hx : x < k := hx
      have hy : y < k := hy
      show ∑ i ∈ range a, ∑ j ∈ range n, _ = _
      rw [← qo x hx y hy, range_mul_sum]
      refine sum_congr rfl fun i _ => sum_congr rfl fun j hj => ?_
      rw [ND.reshape_split12 q1' _ _ _ (by simpa using hj), ND.reshape_split12 q1' _ _ _ (by simpa using hj)]
    · intro j hj
      cases j with
      | zero =>
        show bondOf (Os ++ [L]) 0 = min ((Q.reshape [a, n, k]).dim 0 * C.dim 1) (D.dim 0)
        have : bondOf (Os ++ [L]) 0 = k := by
          match Os, o2 with
          | [], ⟨n', r', hO, _⟩ => exact (dim_of_shape3 hO).1
          | O :: Os, ⟨n', r', hO, _⟩ => exact (dim_of_shape3 hO).1
        rw [this, d1, e0, hk]; rfl
      | succ j =>
        have := o6 j (by simpa using hj)
        show bondOf (Os ++ [L]) (j + 1) = min (bondOf (Os ++ [L]) j * (coreShape (D :: Ds)).getD j 0) (bondOf Ds j)
        rw [this]; rfl
    · rw [List.length_cons, pow_succ]
      refine o7.trans ?_
      have := mul_le_mul_of_nonneg_left hEn (show 0 ≤ (1 + ρ) ^ Ds.length by positivity)
      linarith
    · rw [hcs', List.cons_append, dL_congr hCv hPv, List.length_cons]
      refine (dL_triangle _ _ _ (app Q' n k (valL (E :: Ds))) _).trans ?_
      rw [app_iso hOrth]
      have := mul_le_mul_of_nonneg_left hEn p1
      linarith
    · rw [hcs', List.cons_append, dL_congr hOv (G' := zL) (fun _ _ _ _ => rfl), List.length_cons]
      have h1 := dL_triangle a (n :: coreShape (D :: Ds)) (app Q n k (valL (Os ++ [L]))) (app Q' n k (valL (Os ++ [L]))) zL
      rw [app_iso_zero hOrth] at h1
      have h2 := app_change (M' := Q') (r := a) (n := n) (rest := coreShape (D :: Ds)) q1 (valL (Os ++ [L]))
      have h3 := mul_le_mul_of_nonneg_right (q4.trans hερ) (dL_nonneg k (coreShape (D :: Ds)) (valL (Os ++ [L])) zL)
      have h4 := mul_le_mul_of_nonneg_left hEn p2
      have h5 := mul_le_mul_of_nonneg_left (o9.trans h4) (show 0 ≤ 1 + ρ by linarith)
      have e : (1 + ρ) ^ (2 * (Ds.length + 1)) * (c * v) = (1 + ρ) * ((1 + ρ) ^ (2 * Ds.length) * ((1 + ρ) * (c * v))) := by ring
      rw [e]
      linarith
    · rw [hcs', List.cons_append, dL_congr hCv hOv, List.length_cons]
      have h0 := dL_triangle a (n :: coreShape (D :: Ds)) (app (C.reshape [a * n, t]) n t (valL (D :: Ds)))
        (app Q' n k (valL (E :: Ds))) (app Q n k (valL (Os ++ [L])))
      have h1 := dL_triangle a (n :: coreShape (D :: Ds)) (app Q' n k (valL (E :: Ds)))
        (app Q' n k (valL (Os ++ [L]))) (app Q n k (valL (Os ++ [L])))
      rw [app_iso hOrth] at h1
      have h2 := app_change (M' := Q') (r := a) (n := n) (rest := coreShape (D :: Ds)) q1 (valL (Os ++ [L]))
      rw [dL_symm] at h2
      have h3 := mul_le_mul_of_nonneg_right (q4.trans hερ) (dL_nonneg k (coreShape (D :: Ds)) (valL (Os ++ [L])) zL)
      have h4 := mul_le_mul_of_nonneg_left hEn p2
      have h5 := mul_le_mul_of_nonneg_left (o9.trans h4) hρ0
      have h6 := mul_le_mul_of_nonneg_left hEn p3
      linarith

end TTS
