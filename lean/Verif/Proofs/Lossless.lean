import Verif.Proofs.OrthTT
import Verif.Spec.Ranks

/-! Lossless reduction of the ranks of a tensor train. -/

namespace TTS

open Finset

variable {K : Type*} [CommSemiring K]

/-- The bonds of a list of cores ending in the bond `s`. -/
def bnd (Cs : List (ND K)) (s k : ℕ) : ℕ := (Cs.map (fun C => C.dim 0) ++ [s]).getD k 0

theorem bnd_nil (s : ℕ) : bnd ([] : List (ND K)) s 0 = s := rfl
theorem bnd_zero (C : ND K) (Cs : List (ND K)) (s : ℕ) : bnd (C :: Cs) s 0 = C.dim 0 := rfl
theorem bnd_succ (C : ND K) (Cs : List (ND K)) (s k : ℕ) : bnd (C :: Cs) s (k + 1) = bnd Cs s k := rfl

theorem bnd_chain {Cs : List (ND K)} {r s : ℕ} (h : TTChain r Cs s) : bnd Cs s 0 = r := by
  match Cs, h with
  | [], h => exact h.symm
  | C :: Cs, ⟨n, t, hC, _⟩ => exact (dim_of_shape3 hC).1

/-- Identity matrix. -/
def eyeND (n : ℕ) : ND K := ND.ofFn [n, n] fun i => if i.getD 0 0 = i.getD 1 0 then 1 else 0

theorem eyeND_get {n x y : ℕ} (hx : x < n) (hy : y < n) : (eyeND n : ND K).get [x, y] = if x = y then 1 else 0 := by
  unfold eyeND; rw [ND.ofFn_get (show InR [n, n] [x, y] from ⟨hx, hy, trivial⟩)]; rfl

/-- Every matrix is a product through the smaller one of its sizes. -/
theorem factor_min (M : ND K) {u t : ℕ} (hM : M.shape = [u, t]) : ∃ Q R : ND K,
    Q.shape = [u, min u t] ∧ R.shape = [min u t, t] ∧
      ∀ x < u, ∀ w < t, ∑ z ∈ range (min u t), Q.get [x, z] * R.get [z, w] = M.get [x, w] := by
  rcases le_total u t with h | h
  · rw [min_eq_left h]
    refine ⟨eyeND u, M, rfl, hM, fun x hx w hw => ?_⟩
    rw [sum_eq_single x]
    · rw [eyeND_get hx hx, if_pos rfl, one_mul]
    · intro z hz hzx; rw [eyeND_get hx (by simpa using hz), if_neg (Ne.symm hzx), zero_mul]
    · intro h; exact absurd (mem_range.2 hx) h
  · rw [min_eq_right h]
    refine ⟨M, eyeND t, hM, rfl, fun x hx w hw => ?_⟩
    rw [sum_eq_single w]
    · rw [eyeND_get hw hw, if_pos rfl, mul_one]
    · intro z hz hzx; rw [eyeND_get (by simpa using hz) hw, if_neg hzx, mul_zero]
    · intro h; exact absurd (mem_range.2 hw) h

/-- Left to right: every bond at most the previous one times the mode in between. -/
theorem leftReduce : ∀ (Cs : List (ND K)) (C : ND K) (a n t s : ℕ), C.shape = [a, n, t] → TTChain t Cs s →
    ∃ Os, TTChain a Os s ∧ coreShape Os = coreShape (C :: Cs) ∧ Os.length = Cs.length + 1 ∧
      (∀ p, ∀ x < a, ∀ y < s, ttVal Os p x y = ttVal (C :: Cs) p x y) ∧
      ∀ k < Cs.length, bnd Os s (k + 1)
        = min (bnd Os s k * (coreShape (C :: Cs)).getD k 0) (bnd (C :: Cs) s (k + 1))
  | [], C, a, n, t, s, hC, hCs => by
    exact ⟨[C], ⟨n, t, hC, hCs⟩, rfl, rfl, fun _ _ _ _ _ => rfl, fun k hk => by simp at hk⟩
  | D :: Ds, C, a, n, t, s, hC, ⟨m, t', hD, hDs⟩ => by
    obtain ⟨d0, d1, d2⟩ := dim_of_shape3 hC
    obtain ⟨e0, e1, e2⟩ := dim_of_shape3 hD
    obtain ⟨Q, R, q1, q2, q3⟩ := factor_min (C.reshape [a * n, t]) (u := a * n) (t := t) rfl
    obtain ⟨k, hk⟩ : ∃ k, k = min (a * n) t := ⟨_, rfl⟩
    rw [← hk] at q1 q2 q3
    have hg : ∀ i j x, j < n → (Q.reshape [a, n, k]).get [i, j, x] = Q.get [i * n + j, x] :=
      fun i j x hj => ND.reshape_split12 q1 i j x hj
    have hD' : (ND.es_ij_jkl_ikl R D).shape = [k, m, t'] := ND.es_ij_jkl_ikl_shape q2 hD
    obtain ⟨Os, o2, o3, o5, o6, o7⟩ := leftReduce Ds (ND.es_ij_jkl_ikl R D) k m t' s hD' hDs
    have hcs : coreShape (ND.es_ij_jkl_ikl R D :: Ds) = coreShape (D :: Ds) := by
      show (ND.es_ij_jkl_ikl R D).dim 1 :: _ = D.dim 1 :: _
      rw [(dim_of_shape3 hD').2.1, e1]
    refine ⟨Q.reshape [a, n, k] :: Os, ⟨n, k, rfl, o2⟩, ?_, by simp [o5], ?_, ?_⟩
    · show n :: coreShape Os = C.dim 1 :: coreShape (D :: Ds)
      rw [o3, hcs, d1]
    · intro p x hx y hy
      cases p with
      | nil => rfl
      | cons i p =>
        by_cases hi : i < n
        · rw [ttVal_cons (n := n) (r := a) (t := k) rfl, ttVal_cons hC]
          have e : ∀ z ∈ range k, (Q.reshape [a, n, k]).get [x, i, z] * ttVal Os p z y
              = ∑ w ∈ range t, Q.get [x * n + i, z] * R.get [z, w] * ttVal (D :: Ds) p w y := by
            intro z hz
            rw [hg _ _ _ hi, o6 p z (by simpa using hz) y hy]
            cases p with
            | nil => 
              rw [ttVal_length _ [] _ _ (by simp), mul_zero]
              exact (sum_eq_zero fun w _ => by rw [ttVal_length _ [] _ _ (by simp), mul_zero]).symm
            | cons j p =>
              rw [ttVal_cons hD', mul_sum]
              have e1 : ∀ u ∈ range t', Q.get [x * n + i, z] * ((ND.es_ij_jkl_ikl R D).get [z, j, u] * ttVal Ds p u y)
                  = ∑ w ∈ range t, Q.get [x * n + i, z] * R.get [z, w] * (D.get [w, j, u] * ttVal Ds p u y) := by
                intro u _
                rw [ND.es_ij_jkl_ikl_get q2 hD, sum_mul, mul_sum]
                exact sum_congr rfl fun w _ => by ring
              rw [sum_congr rfl e1, sum_comm]
              refine sum_congr rfl fun w _ => ?_
              rw [ttVal_cons hD, mul_sum]
          rw [sum_congr rfl e, sum_comm]
          refine sum_congr rfl fun w hw => ?_
          rw [← ND.reshape_merge12 hC x i w hi, ← q3 (x * n + i) ((ND.lt_mul_iff hi).2 hx) w (by simpa using hw),
            sum_mul]
        · rw [ttVal_cons (n := n) (r := a) (t := k) rfl, ttVal_cons hC,
            sum_eq_zero fun z _ => by rw [ND.oob3 (p := a) (q := n) (r := k) rfl (by tauto), zero_mul],
            sum_eq_zero fun z _ => by rw [ND.oob3 hC (by tauto), zero_mul]]
    · intro j hj
      cases j with
      | zero =>
        rw [bnd_succ, bnd_chain o2, bnd_succ, bnd_zero, bnd_zero, e0]
        show k = min (a * C.dim 1) t
        rw [d1, hk]
      | succ j =>
        have := o7 j (by simpa using hj)
        rw [bnd_succ, this, bnd_succ, bnd_succ, hcs, bnd_succ, bnd_succ]; rfl

/-- Right to left: every bond at most the mode times the next one. -/
theorem rightReduce : ∀ (Cs : List (ND K)) (a s : ℕ), TTChain a Cs s → Cs ≠ [] →
    ∃ (Os : List (ND K)) (R : ND K), TTChain (bnd Os s 0) Os s ∧ R.shape = [a, bnd Os s 0] ∧
      coreShape Os = coreShape Cs ∧ Os.length = Cs.length ∧
      (∀ p, ∀ x < a, ∀ y < s, ttVal Cs p x y = ∑ z ∈ range (bnd Os s 0), R.get [x, z] * ttVal Os p z y) ∧
      ∀ k < Cs.length, bnd Os s k = min (bnd Cs s k) ((coreShape Cs).getD k 0 * bnd Os s (k + 1))
  | [C], a, s, ⟨n, t, hC, h⟩, _ => by
    cases h
    obtain ⟨d0, d1, d2⟩ := dim_of_shape3 hC
    obtain ⟨R, Q, q1, q2, q3⟩ := factor_min (C.reshape [a, n * s]) (u := a) (t := n * s) rfl
    obtain ⟨k, hk⟩ : ∃ k, k = min a (n * s) := ⟨_, rfl⟩
    rw [← hk] at q1 q2 q3
    have hg : ∀ t i y, y < s → (Q.reshape [k, n, s]).get [t, i, y] = Q.get [t, i * s + y] :=
      fun t i y hy => ND.reshape_split23 q2 t i y hy
    refine ⟨[Q.reshape [k, n, s]], R, ⟨n, s, rfl, rfl⟩, q1, ?_, rfl, ?_, ?_⟩
    · show [n] = [C.dim 1]; rw [d1]
    · intro p x hx y hy
      show _ = ∑ z ∈ range k, _
      match p with
      | [] => rw [ttVal_length _ [] _ _ (by simp)]
              exact (sum_eq_zero fun w _ => by rw [ttVal_length _ [] _ _ (by simp), mul_zero]).symm
      | _ :: _ :: _ => 
              rw [ttVal_length _ _ _ _ (by simp)]
              exact (sum_eq_zero fun w _ => by rw [ttVal_length _ _ _ _ (by simp), mul_zero]).symm
      | [i] =>
        have one : ∀ (D : ND K) {r m : ℕ}, D.shape = [r, m, s] → ∀ z, ttVal [D] [i] z y = D.get [z, i, y] := by
          intro D r m hD z
          rw [ttVal_cons hD, sum_eq_single y]
          · rw [ttVal_nil_nil, if_pos rfl, mul_one]
          · intro w _ hw; rw [ttVal_nil_nil, if_neg hw, mul_zero]
          · intro h; exact absurd (mem_range.2 hy) h
        rw [one C hC]
        by_cases hi : i < n
        · rw [← ND.reshape_merge23 hC x i y hy, ← q3 x hx _ ((ND.lt_mul_iff hy).2 hi)]
          refine sum_congr rfl fun z _ => ?_
          rw [one (Q.reshape [k, n, s]) rfl, hg _ _ _ hy]
        · rw [ND.oob3 hC (by tauto)]
          exact (sum_eq_zero fun z _ => by
            rw [one (Q.reshape [k, n, s]) rfl, ND.oob3 (p := k) (q := n) (r := s) rfl (by tauto), mul_zero]).symm
    · intro j hj
      have : j = 0 := by simpa using hj
      subst this
      show k = min (C.dim 0) (C.dim 1 * s)
      rw [d0, d1, hk]
  | C :: D :: Ds, a, s, ⟨n, t, hC, hCs⟩, _ => by
    obtain ⟨d0, d1, d2⟩ := dim_of_shape3 hC
    obtain ⟨Os, R', o1, o2, o3, o4, o5, o6⟩ := rightReduce (D :: Ds) t s hCs (by simp)
    obtain ⟨c, hc⟩ : ∃ c, c = bnd Os s 0 := ⟨_, rfl⟩
    rw [← hc] at o1 o2 o5
    have hC' : (ND.es_ijk_kl_ijl C R').shape = [a, n, c] := ND.es_ijk_kl_ijl_shape hC o2
    obtain ⟨R, Q, q1, q2, q3⟩ := factor_min ((ND.es_ijk_kl_ijl C R').reshape [a, n * c]) (u := a) (t := n * c) rfl
    obtain ⟨k, hk⟩ : ∃ k, k = min a (n * c) := ⟨_, rfl⟩
    rw [← hk] at q1 q2 q3
    have hg : ∀ t i y, y < c → (Q.reshape [k, n, c]).get [t, i, y] = Q.get [t, i * c + y] :=
      fun t i y hy => ND.reshape_split23 q2 t i y hy
    refine ⟨Q.reshape [k, n, c] :: Os, R, ⟨n, c, rfl, o1⟩, q1, ?_, by simp [o4], ?_, ?_⟩
    · show n :: coreShape Os = C.dim 1 :: coreShape (D :: Ds); rw [d1, o3]
    · intro p x hx y hy
      show _ = ∑ z ∈ range k, _
      match p with
      | [] => rw [ttVal_length _ [] _ _ (by simp)]
              exact (sum_eq_zero fun w _ => by rw [ttVal_length _ [] _ _ (by simp), mul_zero]).symm
      | i :: p =>
        rw [ttVal_cons hC]
        by_cases hi : i < n
        · have e1 : ∀ z ∈ range k, R.get [x, z] * ttVal (Q.reshape [k, n, c] :: Os) (i :: p) z y
              = ∑ w ∈ range c, R.get [x, z] * Q.get [z, i * c + w] * ttVal Os p w y := by
            intro z _
            rw [ttVal_cons (n := n) (r := k) (t := c) rfl, mul_sum]
            refine sum_congr rfl fun w hw => ?_
            rw [hg _ _ _ (by simpa using hw)]; ring
          rw [sum_congr rfl e1, sum_comm]
          have e2 : ∀ w ∈ range c, ∑ z ∈ range k, R.get [x, z] * Q.get [z, i * c + w] * ttVal Os p w y
              = ∑ u ∈ range t, C.get [x, i, u] * (R'.get [u, w] * ttVal Os p w y) := by
            intro w hw
            have hw : w < c := by simpa using hw
            rw [← sum_mul, q3 x hx _ ((ND.lt_mul_iff hw).2 hi), ND.reshape_merge23 hC' x i w hw,
              ND.es_ijk_kl_ijl_get hC o2, sum_mul]
            exact sum_congr rfl fun u _ => by ring
          rw [sum_congr rfl e2, sum_comm]
          refine sum_congr rfl fun u hu => ?_
          rw [o5 p u (by simpa using hu) y hy, mul_sum]
        · rw [sum_eq_zero fun z _ => by rw [ND.oob3 hC (by tauto), zero_mul]]
          exact (sum_eq_zero fun z _ => by
            rw [ttVal_cons (n := n) (r := k) (t := c) rfl,
              sum_eq_zero fun w _ => by rw [ND.oob3 (p := k) (q := n) (r := c) rfl (by tauto), zero_mul],
              mul_zero]).symm
    · intro j hj
      cases j with
      | zero =>
        rw [bnd_zero, bnd_zero, bnd_succ, ← hc]
        show k = min (C.dim 0) (C.dim 1 * c)
        rw [d0, d1, hk]
      | succ j =>
        have := o6 j (by simpa using hj)
        rw [bnd_succ, this, bnd_succ, bnd_succ]; rfl

/-- Cores padded with zeros to larger bonds. -/
def zeroPad : List (ND K) → List ℕ → List (ND K)
  | C :: Cs, e :: f :: es => ND.ofFn [e, C.dim 1, f] (fun i => C.get i) :: zeroPad Cs (f :: es)
  | _, _ => []

theorem zeroPad_spec : ∀ (Cs : List (ND K)) (es : List ℕ) (a s : ℕ), TTChain a Cs s → es.length = Cs.length + 1 →
    (∀ k ≤ Cs.length, bnd Cs s k ≤ es.getD k 0) →
    TTChain (es.getD 0 0) (zeroPad Cs es) (es.getLastD 0) ∧ coreShape (zeroPad Cs es) = coreShape Cs ∧
      (zeroPad Cs es).map (fun C => C.dim 0) ++ [es.getLastD 0] = es ∧
      ∀ p, ∀ x < a, ∀ y < s, ttVal (zeroPad Cs es) p x y = ttVal Cs p x y
  | [], [e], a, s, h, _, hle => by
    exact ⟨rfl, rfl, rfl, fun p x hx y hy => rfl⟩
  | C :: Cs, e :: f :: es, a, s, ⟨n, t, hC, hCs⟩, hl, hle => by
    obtain ⟨d0, d1, d2⟩ := dim_of_shape3 hC
    obtain ⟨h1, h2, h3, h4⟩ := zeroPad_spec Cs (f :: es) t s hCs (by simpa using hl)
      (fun k hk => hle (k + 1) (by simpa using hk))
    have hP : (ND.ofFn [e, n, f] fun i => C.get i).shape = [e, n, f] := rfl
    have hlast : (e :: f :: es).getLastD 0 = (f :: es).getLastD 0 := by simp [List.getLastD]
    have ha : a ≤ e := by
      have := hle 0 (by simp)
      rw [bnd_zero, d0] at this; exact this
    have htf : t ≤ f := by
      have := hle 1 (by simp)
      rw [bnd_succ, bnd_chain hCs] at this; exact this
    rw [hlast]
    refine ⟨?_, ?_, ?_, ?_⟩
    · show TTChain e (ND.ofFn [e, C.dim 1, f] (fun i => C.get i) :: zeroPad Cs (f :: es)) _
      exact ⟨C.dim 1, f, rfl, h1⟩
    · show C.dim 1 :: coreShape (zeroPad Cs (f :: es)) = _
      rw [h2]; rfl
    · show e :: ((zeroPad Cs (f :: es)).map (fun C => C.dim 0) ++ [_]) = _
      rw [h3]
    · intro p x hx y hy
      show ttVal (ND.ofFn [e, C.dim 1, f] (fun i => C.get i) :: zeroPad Cs (f :: es)) p x y = _
      cases p with
      | nil => rfl
      | cons i p =>
        rw [ttVal_cons (r := e) (n := C.dim 1) (t := f) rfl, ttVal_cons hC, d1]
        rw [← sum_range_add_sum_Ico _ htf, sum_eq_zero (s := Ico t f), add_zero]
        · refine sum_congr rfl fun z hz => ?_
          have hz : z < t := by simpa using hz
          rw [h4 p z hz y hy]
          congr 1
          by_cases hi : i < n
          · rw [ND.ofFn_get (show InR [e, n, f] [x, i, z] from ⟨by omega, hi, by omega, trivial⟩)]
          · rw [ND.oob3 hP (by tauto), ND.oob3 hC (by tauto)]
        · intro z hz
          have hz := mem_Ico.1 hz
          by_cases hi : i < n
          · rw [ND.ofFn_get (show InR [e, n, f] [x, i, z] from ⟨by omega, hi, by omega, trivial⟩),
              ND.oob3 hC (by omega), zero_mul]
          · rw [ND.oob3 hP (by tauto), zero_mul]
  | [], [], _, _, _, hl, _ => by simp at hl
  | [], _ :: _ :: _, _, _, _, hl, _ => by simp at hl
  | _ :: _, [], _, _, _, hl, _ => by simp at hl
  | _ :: _, [_], _, _, _, hl, _ => by simp at hl

end TTS
