import Verif.Spec.Numerics
import Verif.Proofs.TensorTT
import Verif.Proofs.Contr

/-! Left-orthogonalisation of tensor trains. -/

namespace TTS

open Finset

/-- The product of left-orthogonal cores has orthonormal columns. -/
theorem ttVal_gram : ∀ {As : List (ND ℝ)} {r s : ℕ}, TTChain r As s → (∀ C ∈ As, C.LeftOrthogonal) →
    ∀ b < s, ∀ c < s, ∑ a ∈ range r, sumIdx (coreShape As) (fun p => ttVal As p a b * ttVal As p a c)
      = if b = c then 1 else 0
  | [], r, s, h, _, b, hb, c, hc => by
    cases h
    show ∑ a ∈ range r, (if a = b then (1 : ℝ) else 0) * (if a = c then 1 else 0) = _
    rw [sum_eq_single b]
    · simp
    · intro a _ ha; simp [ha]
    · intro h; exact absurd (mem_range.2 hb) h
  | C :: As, r, s, ⟨n, t, hC, hCs⟩, ho, b, hb, c, hc => by
    have IH := ttVal_gram hCs (fun D hD => ho D (List.mem_cons_of_mem _ hD)) b hb c hc
    have hO := ho C (List.mem_cons_self)
    obtain ⟨d0, d1, d2⟩ := dim_of_shape3 hC
    unfold ND.LeftOrthogonal at hO
    rw [d0, d1, d2] at hO
    rw [← IH]
    show ∑ a ∈ range r, sumIdx (C.dim 1 :: coreShape As) _ = _
    rw [d1]
    show ∑ a ∈ range r, ∑ i ∈ range n, sumIdx (coreShape As) (fun p => ttVal (C :: As) (i :: p) a b
      * ttVal (C :: As) (i :: p) a c) = _
    have e : ∀ a i, sumIdx (coreShape As) (fun p => ttVal (C :: As) (i :: p) a b * ttVal (C :: As) (i :: p) a c)
        = ∑ x ∈ range t, ∑ y ∈ range t, C.get [a, i, x] * C.get [a, i, y]
          * sumIdx (coreShape As) (fun p => ttVal As p x b * ttVal As p y c) := by
      intro a i
      have : ∀ p, ttVal (C :: As) (i :: p) a b * ttVal (C :: As) (i :: p) a c
          = ∑ x ∈ range t, ∑ y ∈ range t, C.get [a, i, x] * C.get [a, i, y] * (ttVal As p x b * ttVal As p y c) := by
        intro p
        rw [ttVal_cons hC, ttVal_cons hC, sum_mul_sum]
        exact sum_congr rfl fun x _ => sum_congr rfl fun y _ => by ring
      simp only [this]
      rw [sumIdx_sum]
      refine sum_congr rfl fun x _ => ?_
      rw [sumIdx_sum]
      refine sum_congr rfl fun y _ => ?_
      rw [mul_sumIdx]
    simp only [e]
    have swap : ∑ a ∈ range r, ∑ i ∈ range n, ∑ x ∈ range t, ∑ y ∈ range t, C.get [a, i, x] * C.get [a, i, y]
          * sumIdx (coreShape As) (fun p => ttVal As p x b * ttVal As p y c)
        = ∑ x ∈ range t, ∑ y ∈ range t, (∑ a ∈ range r, ∑ i ∈ range n, C.get [a, i, x] * C.get [a, i, y])
          * sumIdx (coreShape As) (fun p => ttVal As p x b * ttVal As p y c) := by
      simp only [sum_mul]
      rw [sum_congr rfl fun a _ => sum_comm, sum_comm]
      refine sum_congr rfl fun x _ => ?_
      rw [sum_congr rfl fun a _ => sum_comm, sum_comm]
    rw [swap]
    refine sum_congr rfl fun x hx => ?_
    rw [sum_eq_single x]
    · rw [hO x (by simpa using hx) x (by simpa using hx), if_pos rfl, one_mul]
    · intro y hy hxy
      rw [hO x (by simpa using hx) y (by simpa using hy), if_neg (fun h => hxy h.symm), zero_mul]
    · intro h; exact absurd hx h

/-- Isometry: left-orthogonal cores keep inner products. -/
theorem ttVal_isometry {As : List (ND ℝ)} {s : ℕ} (h : TTChain 1 As s) (ho : ∀ C ∈ As, C.LeftOrthogonal)
    (f g : ℕ → ℝ) :
    sumIdx (coreShape As) (fun p => (∑ x ∈ range s, ttVal As p 0 x * f x) * ∑ y ∈ range s, ttVal As p 0 y * g y)
      = ∑ x ∈ range s, f x * g x := by
  have e : ∀ p, (∑ x ∈ range s, ttVal As p 0 x * f x) * (∑ y ∈ range s, ttVal As p 0 y * g y)
      = ∑ x ∈ range s, ∑ y ∈ range s, f x * g y * (ttVal As p 0 x * ttVal As p 0 y) := by
    intro p
    rw [sum_mul_sum]
    exact sum_congr rfl fun x _ => sum_congr rfl fun y _ => by ring
  simp only [e]
  rw [sumIdx_sum]
  refine sum_congr rfl fun x hx => ?_
  rw [sumIdx_sum]
  have hG : ∀ y < s, sumIdx (coreShape As) (fun p => ttVal As p 0 x * ttVal As p 0 y) = if x = y then 1 else 0 := by
    intro y hy
    have := ttVal_gram h ho x (by simpa using hx) y hy
    simpa using this
  have hG' : ∀ y ∈ range s, sumIdx (coreShape As) (fun p => f x * g y * (ttVal As p 0 x * ttVal As p 0 y))
      = if x = y then f x * g y else 0 := by
    intro y hy
    rw [← mul_sumIdx, hG y (by simpa using hy)]
    split_ifs <;> simp
  rw [sum_congr rfl hG']
  rw [sum_ite_eq, if_pos hx]

/-! ### the QR sweep -/

theorem orthLoop_some (la : LinAlg) (R C : ND ℝ) (Cs : List (ND ℝ)) :
    TT.orthLoop la (some R) (C :: Cs) = TT.orthLoop la none (ND.es_ij_jkl_ikl R C :: Cs) := by
  cases Cs <;> rfl

/-- The `k`-th bond of a list of cores. -/
def bondOf {K : Type*} [Zero K] (Cs : List (ND K)) (k : ℕ) : ℕ := (Cs.getD k (ND.zeros [])).dim 0

theorem orthLoop_spec {la : LinAlg} (hq : la.QROk) : ∀ (Cs : List (ND ℝ)) (C : ND ℝ) (a n t s : ℕ),
    C.shape = [a, n, t] → TTChain t Cs s → 0 < a → 0 < n → (∀ D ∈ Cs, 0 < D.dim 0 ∧ 0 < D.dim 1) →
    ∃ Os, TT.orthLoop la none (C :: Cs) = .ok Os ∧ TTChain a Os s ∧ coreShape Os = coreShape (C :: Cs) ∧
      (∀ D ∈ Os.dropLast, D.LeftOrthogonal) ∧ Os.length = Cs.length + 1 ∧
      (∀ p, ∀ x < a, ∀ y < s, ttVal Os p x y = ttVal (C :: Cs) p x y) ∧
      ∀ k < Cs.length, bondOf Os (k + 1)
        = min (bondOf Os k * (coreShape (C :: Cs)).getD k 0) (bondOf (C :: Cs) (k + 1))
  | [], C, a, n, t, s, hC, hCs, ha, hn, hpos => by
    exact ⟨[C], rfl, ⟨n, t, hC, hCs⟩, rfl, by simp, rfl, fun _ _ _ _ _ => rfl, fun k hk => by simp at hk⟩
  | D :: Ds, C, a, n, t, s, hC, ⟨m, t', hD, hDs⟩, ha, hn, hpos => by
    obtain ⟨d0, d1, d2⟩ := dim_of_shape3 hC
    obtain ⟨e0, e1, e2⟩ := dim_of_shape3 hD
    have ht : 0 < t := by have := (hpos D List.mem_cons_self).1; rwa [e0] at this
    have hm : 0 < m := by have := (hpos D List.mem_cons_self).2; rwa [e1] at this
    obtain ⟨q1, q2, q3, q4⟩ := hq (C.reshape [a * n, t]) (a * n) t rfl
    generalize hQR : la.qr (C.reshape [a * n, t]) = QR at q1 q2 q3 q4
    obtain ⟨Q, R⟩ := QR
    simp only at q1 q2 q3 q4
    obtain ⟨k, hk⟩ : ∃ k, k = min (a * n) t := ⟨_, rfl⟩
    rw [← hk] at q1 q2 q3 q4
    have han : 0 < a * n := Nat.mul_pos ha hn
    have hkpos : 0 < k := by rw [hk]; exact lt_min han ht
    have hre : ND.reshapeInfer Q a n = .ok (Q.reshape [a, n, k]) := by
      have hsz : Q.size = a * n * k := by simp [ND.size, q1]
      unfold ND.reshapeInfer
      rw [if_neg (by omega), if_neg (by rw [hsz]; simp), hsz, Nat.mul_div_cancel_left _ han]
    have hg : ∀ i j x, j < n → (Q.reshape [a, n, k]).get [i, j, x] = Q.get [i * n + j, x] :=
      fun i j x hj => ND.reshape_split12 q1 i j x hj
    have hD' : (ND.es_ij_jkl_ikl R D).shape = [k, m, t'] := ND.es_ij_jkl_ikl_shape q2 hD
    obtain ⟨Os, o1, o2, o3, o4, o5, o6, o7⟩ := orthLoop_spec hq Ds (ND.es_ij_jkl_ikl R D) k m t' s hD' hDs hkpos hm
      (fun E hE => hpos E (List.mem_cons_of_mem _ hE))
    have hOne : Os ≠ [] := by intro h; rw [h] at o5; simp at o5
    have hcs : coreShape (ND.es_ij_jkl_ikl R D :: Ds) = coreShape (D :: Ds) := by
      show (ND.es_ij_jkl_ikl R D).dim 1 :: _ = D.dim 1 :: _
      rw [(dim_of_shape3 hD').2.1, e1]
    refine ⟨Q.reshape [a, n, k] :: Os, ?_, ⟨n, k, rfl, o2⟩, ?_, ?_, by simp [o5], ?_, ?_⟩
    · rw [TT.orthLoop]
      rw [d0, d1, d2, hQR]
      dsimp only
      rw [hre]
      dsimp only
      rw [orthLoop_some, o1]
    · show n :: coreShape Os = C.dim 1 :: coreShape (D :: Ds)
      rw [o3, hcs, d1]
    · intro E hE
      rw [List.dropLast_cons_of_ne_nil hOne] at hE
      rcases List.mem_cons.1 hE with rfl | hE
      · intro x hx y hy
        have hx : x < k := hx
        have hy : y < k := hy
        show ∑ i ∈ range a, ∑ j ∈ range n, _ = _
        rw [← q4 x hx y hy, range_mul_sum]
        refine sum_congr rfl fun i _ => sum_congr rfl fun j hj => ?_
        rw [hg _ _ _ (by simpa using hj), hg _ _ _ (by simpa using hj)]
      · exact o4 E hE
    · intro p x hx y hy
      cases p with
      | nil => rfl
      | cons i p =>
        by_cases hi : i < n
        · rw [ttVal_cons (n := n) (r := a) (t := k) rfl, ttVal_cons hC]
          have e : ∀ z ∈ range k, (Q.reshape [a, n, k]).get [x, i, z] * ttVal Os p z y
              = ∑ w ∈ range t, Q.get [x * n + i, z] * R.get [z, w] * ttVal (D :: Ds) p w y := by
            intro z hz
            rw [hg _ _ _ hi, o6 p z (by simpa using hz) y hy]
            cases p with
            | nil => 
              rw [ttVal_length _ [] _ _ (by simp), mul_zero]
              exact (sum_eq_zero fun w _ => by rw [ttVal_length _ [] _ _ (by simp), mul_zero]).symm
            | cons j p =>
              rw [ttVal_cons hD', mul_sum]
              have e1 : ∀ u ∈ range t', Q.get [x * n + i, z] * ((ND.es_ij_jkl_ikl R D).get [z, j, u] * ttVal Ds p u y)
                  = ∑ w ∈ range t, Q.get [x * n + i, z] * R.get [z, w] * (D.get [w, j, u] * ttVal Ds p u y) := by
                intro u _
                rw [ND.es_ij_jkl_ikl_get q2 hD, sum_mul, mul_sum]
                exact sum_congr rfl fun w _ => by ring
              rw [sum_congr rfl e1, sum_comm]
              refine sum_congr rfl fun w _ => ?_
              rw [ttVal_cons hD, mul_sum]
          rw [sum_congr rfl e, sum_comm]
          refine sum_congr rfl fun w hw => ?_
          rw [← ND.reshape_merge12 hC x i w hi, ← q3 (x * n + i) ((ND.lt_mul_iff hi).2 hx) w (by simpa using hw),
            sum_mul]
        · rw [ttVal_cons (n := n) (r := a) (t := k) rfl, ttVal_cons hC,
            sum_eq_zero fun z _ => by rw [ND.oob3 (p := a) (q := n) (r := k) rfl (by tauto), zero_mul],
            sum_eq_zero fun z _ => by rw [ND.oob3 hC (by tauto), zero_mul]]
    · intro j hj
      cases j with
      | zero =>
        show bondOf Os 0 = min ((Q.reshape [a, n, k]).dim 0 * C.dim 1) (D.dim 0)
        have : bondOf Os 0 = k := by
          match Os, o2 with
          | O :: Os, ⟨n', r', hO, _⟩ => show O.dim 0 = k; exact (dim_of_shape3 hO).1
        rw [this, d1, e0, hk]; rfl
      | succ j =>
        have := o7 j (by simpa using hj)
        show bondOf Os (j + 1) = min (bondOf Os j * (coreShape (D :: Ds)).getD j 0) (bondOf Ds j)
        rw [this, hcs]; rfl

end TTS
