import Verif.Spec.MPO
import Verif.Proofs.TensorTT

namespace TTS

open Finset

variable {K : Type*}

theorem dim_of_shape4 [Zero K] {C : ND K} {a b c e : ℕ} (h : C.shape = [a, b, c, e]) :
    C.dim 0 = a ∧ C.dim 1 = b ∧ C.dim 2 = c ∧ C.dim 3 = e := by simp [ND.dim, h]

section
variable [CommSemiring K]

def mpoIn (Ms : List (ND K)) : List ℕ := Ms.map fun C => C.dim 1
def mpoOut (Ms : List (ND K)) : List ℕ := Ms.map fun C => C.dim 2

theorem mpoVal_cons {C : ND K} {r n m t : ℕ} (h : C.shape = [r, n, m, t]) (Cs : List (ND K)) (j k : ℕ)
    (js ks : List ℕ) (a b : ℕ) :
    mpoVal (C :: Cs) (j :: js) (k :: ks) a b = ∑ x ∈ range t, C.get [a, j, k, x] * mpoVal Cs js ks x b := by
  show ∑ x ∈ range (C.dim 3), _ = _
  rw [(dim_of_shape4 h).2.2.2]

theorem callCore_shape {M C : ND K} {r n m t a n' b : ℕ} (hM : M.shape = [r, n, m, t]) (hC : C.shape = [a, n', b]) :
    (MPO.callCore M C).shape = [r * a, m, t * b] := by
  have := ND.es_ijkl_ajb_iaklb_shape hM hC
  simp [MPO.callCore, ND.dim, this]

theorem callCore_get {M C : ND K} {r n m t a n' b : ℕ} (hM : M.shape = [r, n, m, t]) (hC : C.shape = [a, n', b])
    {i x l y : ℕ} (k : ℕ) (hi : i < r) (hx : x < a) (hl : l < t) (hy : y < b) :
    (MPO.callCore M C).get [i * a + x, k, l * b + y] = ∑ j ∈ range n, M.get [i, j, k, l] * C.get [x, j, y] := by
  have hs := ND.es_ijkl_ajb_iaklb_shape hM hC
  by_cases hk : k < m
  · rw [← ND.es_ijkl_ajb_iaklb_get hM hC]
    have h0 := callCore_shape hM hC
    simp only [MPO.callCore] at h0 ⊢
    have e : ((ND.es_ijkl_ajb_iaklb M C).dim 0 * (ND.es_ijkl_ajb_iaklb M C).dim 1) = r * a ∧
      (ND.es_ijkl_ajb_iaklb M C).dim 2 = m ∧
      ((ND.es_ijkl_ajb_iaklb M C).dim 3 * (ND.es_ijkl_ajb_iaklb M C).dim 4) = t * b := by simp [ND.dim, hs]
    rw [e.1, e.2.1, e.2.2]
    apply ND.reshape_get_of_ravel
    · exact ⟨(ND.lt_mul_iff hx).2 hi, hk, (ND.lt_mul_iff hy).2 hl, trivial⟩
    · rw [hs]; exact ⟨hi, hx, hk, hl, hy, trivial⟩
    · rw [hs]; simp [ravel]; ring
  · rw [ND.oob3 (callCore_shape hM hC) (by tauto)]
    exact (sum_eq_zero fun j _ => by rw [ND.oob4 hM (by tauto), zero_mul]).symm

theorem call_chain : ∀ {Ms Cs : List (ND K)} {r s a b : ℕ}, MPOChain r Ms s → TTChain a Cs b →
    coreShape Cs = mpoIn Ms →
    TTChain (r * a) (List.zipWith MPO.callCore Ms Cs) (s * b) ∧
    coreShape (List.zipWith MPO.callCore Ms Cs) = mpoOut Ms ∧
    ∀ (ks : List ℕ) (i x l y : ℕ), i < r → x < a → l < s → y < b →
      ttVal (List.zipWith MPO.callCore Ms Cs) ks (i * a + x) (l * b + y)
        = sumIdx (mpoIn Ms) fun js => mpoVal Ms js ks i l * ttVal Cs js x y
  | [], [], r, s, a, b, hM, hC, _ => by
    cases hM; cases hC
    refine ⟨rfl, rfl, fun ks i x l y hi hx hl hy => ?_⟩
    cases ks with
    | nil =>
      simp only [List.zipWith_nil_left, ttVal_nil_nil, mpoIn, List.map_nil, sumIdx_nil, mpoVal]
      by_cases h : i = l
      · subst h; by_cases h' : x = y <;> simp [h']
      · rw [if_neg, if_neg h, zero_mul]
        intro e; apply h
        have h1 : (i * a + x) / a = i := by
          rw [Nat.add_comm, Nat.add_mul_div_right _ _ (by omega), Nat.div_eq_of_lt hx, Nat.zero_add]
        have h2 : (l * a + y) / a = l := by
          rw [Nat.add_comm, Nat.add_mul_div_right _ _ (by omega), Nat.div_eq_of_lt hy, Nat.zero_add]
        rw [← h1, e, h2]
    | cons k ks => simp [mpoIn, ttVal, mpoVal]
  | [], _ :: _, _, _, _, _, _, _, h => by simp [coreShape, mpoIn] at h
  | _ :: _, [], _, _, _, _, _, _, h => by simp [coreShape, mpoIn] at h
  | M :: Ms, C :: Cs, r, s, a, b, ⟨n, m, t, hM, hMs⟩, ⟨n', u, hC, hCs⟩, h => by
    have hn : C.dim 1 = M.dim 1 ∧ coreShape Cs = mpoIn Ms := by simpa [coreShape, mpoIn] using h
    obtain ⟨c1, c2, c3⟩ := call_chain hMs hCs hn.2
    have hsh := callCore_shape hM hC
    refine ⟨⟨m, t * u, hsh, c1⟩, ?_, ?_⟩
    · show (MPO.callCore M C).dim 1 :: coreShape (List.zipWith MPO.callCore Ms Cs) = M.dim 2 :: mpoOut Ms
      rw [c2, (dim_of_shape3 hsh).2.1, (dim_of_shape4 hM).2.2.1]
    · intro ks i x l y hi hx hl hy
      cases ks with
      | nil =>
        rw [ttVal_length _ _ _ _ (by simp)]
        exact (sumIdx_eq_zero fun js _ => by cases js <;> simp [mpoVal]).symm
      | cons k ks =>
        have hd : mpoIn (M :: Ms) = n :: mpoIn Ms := by simp [mpoIn, (dim_of_shape4 hM).2.1]
        rw [hd, sumIdx_cons, List.zipWith_cons_cons, ttVal_cons hsh, range_mul_sum]
        have e1 : ∀ p ∈ range t, ∀ q ∈ range u,
            (MPO.callCore M C).get [i * a + x, k, p * u + q] *
              ttVal (List.zipWith MPO.callCore Ms Cs) ks (p * u + q) (l * b + y)
            = ∑ j ∈ range n, sumIdx (mpoIn Ms) fun js =>
              (M.get [i, j, k, p] * mpoVal Ms js ks p l) * (C.get [x, j, q] * ttVal Cs js q y) := by
          intro p hp q hq
          rw [callCore_get hM hC k hi hx (mem_range.1 hp) (mem_range.1 hq),
            c3 ks p q l y (mem_range.1 hp) (mem_range.1 hq) hl hy, sum_mul]
          refine sum_congr rfl fun j _ => ?_
          rw [mul_sumIdx]
          exact sumIdx_congr fun js _ => by ring
        rw [sum_congr rfl fun p hp => sum_congr rfl fun q hq => e1 p hp q hq]
        have e2 : ∀ j ∈ range n, (sumIdx (mpoIn Ms) fun js => mpoVal (M :: Ms) (j :: js) (k :: ks) i l * ttVal (C :: Cs) (j :: js) x y)
            = ∑ p ∈ range t, ∑ q ∈ range u, sumIdx (mpoIn Ms) fun js =>
              (M.get [i, j, k, p] * mpoVal Ms js ks p l) * (C.get [x, j, q] * ttVal Cs js q y) := by
          intro j _
          simp only [mpoVal_cons hM, ttVal_cons hC, sum_mul_sum, sumIdx_sum]
        rw [sum_congr rfl e2]
        symm
        rw [sum_comm]
        exact sum_congr rfl fun p _ => sum_comm

/-! ### `to_numpy` -/

theorem mpo_in_length (Ms : List (ND K)) : (mpoIn Ms).length = Ms.length := by simp [mpoIn]
theorem mpo_out_length (Ms : List (ND K)) : (mpoOut Ms).length = Ms.length := by simp [mpoOut]

theorem interleave_length : ∀ {j k : List ℕ}, j.length = k.length → (interleave j k).length = 2 * j.length
  | [], [], _ => rfl
  | _ :: js, _ :: ks, h => by
    have := interleave_length (j := js) (k := ks) (by simpa using h)
    simp only [interleave, List.length_cons, this]; ring
  | [], _ :: _, h => by simp at h
  | _ :: _, [], h => by simp at h

theorem interleave_inR : ∀ {s t j k : List ℕ}, s.length = t.length → j.length = s.length → k.length = t.length →
    (InR (interleave s t) (interleave j k) ↔ InR s j ∧ InR t k)
  | [], [], [], [], _, _, _ => by simp [interleave]
  | n :: s, m :: t, x :: j, y :: k, h, hj, hk => by
    have := interleave_inR (s := s) (t := t) (j := j) (k := k) (by simpa using h) (by simpa using hj) (by simpa using hk)
    simp only [interleave, inR_cons_cons, this]; tauto
  | [], _ :: _, _, _, h, _, _ => by simp at h
  | _ :: _, [], _, _, h, _, _ => by simp at h
  | [], _, _ :: _, _, _, h, _ => by simp at h
  | _ :: _, _, [], _, _, h, _ => by simp at h
  | _, [], _, _ :: _, _, _, h => by simp at h
  | _, _ :: _, _, [], _, _, h => by simp at h

theorem interleave_surj : ∀ {s t p : List ℕ}, s.length = t.length → InR (interleave s t) p →
    ∃ j k, p = interleave j k ∧ InR s j ∧ InR t k
  | [], [], [], _, _ => ⟨[], [], rfl, trivial, trivial⟩
  | [], [], _ :: _, _, h => by simp [interleave] at h
  | n :: s, m :: t, [], _, h => by simp [interleave] at h
  | n :: s, m :: t, [_], _, h => by simp [interleave] at h
  | n :: s, m :: t, x :: y :: p, h, hp => by
    simp only [interleave, inR_cons_cons] at hp
    obtain ⟨j, k, rfl, hj, hk⟩ := interleave_surj (by simpa using h) hp.2.2
    exact ⟨x :: j, y :: k, rfl, ⟨hp.1, hj⟩, hp.2.1, hk⟩
  | [], _ :: _, _, h, _ => by simp at h
  | _ :: _, [], _, h, _ => by simp at h

theorem mpoVal_oob : ∀ {Ms : List (ND K)} {r s : ℕ}, MPOChain r Ms s → ∀ {j k : List ℕ} (a b : ℕ),
    ¬ (InR (mpoIn Ms) j ∧ InR (mpoOut Ms) k) → mpoVal Ms j k a b = 0
  | [], _, _, _, [], [], _, _, h => absurd ⟨trivial, trivial⟩ h
  | [], _, _, _, _ :: _, _, _, _, _ => by simp [mpoVal]
  | [], _, _, _, [], _ :: _, _, _, _ => by simp [mpoVal]
  | _ :: _, _, _, _, [], _, _, _, _ => by simp [mpoVal]
  | _ :: _, _, _, _, _ :: _, [], _, _, _ => by simp [mpoVal]
  | M :: Ms, r, s, ⟨n, m, t, hM, hMs⟩, j :: js, k :: ks, a, b, h => by
    rw [mpoVal_cons hM]
    apply sum_eq_zero
    intro x _
    by_cases hjk : j < n ∧ k < m
    · rw [mpoVal_oob hMs x b, mul_zero]
      intro h2; apply h
      have hd := dim_of_shape4 hM
      exact ⟨⟨by show j < M.dim 1; omega, h2.1⟩, by show k < M.dim 2; omega, h2.2⟩
    · rw [ND.oob4 hM (by tauto), zero_mul]

theorem foldl_ei_ijkl : ∀ (Ms : List (ND K)) {A : ND K} {s : List ℕ} {r t : ℕ},
    A.shape = s ++ [r] → MPOChain r Ms t →
    (Ms.foldl ND.es_ei_ijkl A).shape = s ++ interleave (mpoIn Ms) (mpoOut Ms) ++ [t] ∧
    ∀ (p j k : List ℕ) (b : ℕ), p.length = s.length → j.length = Ms.length → k.length = Ms.length →
      (Ms.foldl ND.es_ei_ijkl A).get (p ++ interleave j k ++ [b])
        = ∑ a ∈ range r, A.get (p ++ [a]) * mpoVal Ms j k a b
  | [], A, s, r, t, hA, h => by
    cases h
    refine ⟨by simp [mpoIn, mpoOut, interleave, hA], fun p j k b hp hj hk => ?_⟩
    have : j = [] := by simpa using hj
    subst this
    have : k = [] := by simpa using hk
    subst this
    simp only [List.foldl_nil, List.append_nil, interleave, mpoVal, mul_ite, mul_one, mul_zero]
    by_cases hb : b < r
    · rw [sum_ite_eq' (range r) b]; simp [hb]
    · rw [A.supp]
      · symm; apply sum_eq_zero
        intro x hx; have := mem_range.1 hx
        rw [if_neg (by omega)]
      · rw [hA, inR_append hp]; simp; intro _; omega
  | M :: Ms, A, s, r, t, hA, ⟨n, m, u, hM, hMs⟩ => by
    have hA' : (ND.es_ei_ijkl A M).shape = (s ++ [n, m]) ++ [u] := by
      rw [ND.es_ei_ijkl_shape hA hM]; simp
    obtain ⟨h1, h2⟩ := foldl_ei_ijkl Ms hA' hMs
    refine ⟨?_, ?_⟩
    · rw [List.foldl_cons, h1]
      simp [mpoIn, mpoOut, interleave, (dim_of_shape4 hM).2.1, (dim_of_shape4 hM).2.2.1]
    · intro p j k b hp hj hk
      match j, k, hj, hk with
      | x :: j, y :: k, hj, hk =>
        rw [List.foldl_cons]
        have := h2 (p ++ [x, y]) j k b (by simp [hp]) (by simpa using hj) (by simpa using hk)
        rw [show p ++ interleave (x :: j) (y :: k) ++ [b] = p ++ [x, y] ++ interleave j k ++ [b] by simp [interleave], this]
        have e : ∀ z, (ND.es_ei_ijkl A M).get (p ++ [x, y] ++ [z])
            = ∑ a ∈ range r, A.get (p ++ [a]) * M.get [a, x, y, z] := by
          intro z
          rw [← ND.es_ei_ijkl_get hA hM p hp x y z]; simp
        simp only [e, mpoVal_cons hM, sum_mul, mul_sum]
        rw [sum_comm]
        refine sum_congr rfl fun a _ => sum_congr rfl fun x _ => by ring

theorem MPO.toNumpy_shape {A : MPO K} (h : A.Valid) : A.toNumpy.shape = interleave A.inShape A.outShape := by
  obtain ⟨hne, hch⟩ := h
  obtain ⟨cores⟩ := A
  match cores, hne, hch with
  | C :: Cs, _, ⟨n, m, t, hC, hCs⟩ =>
    have hA : (C.reshape C.shape.tail).shape = [n, m] ++ [t] := by simp [hC]
    obtain ⟨h1, _⟩ := foldl_ei_ijkl Cs hA hCs
    simp only [toNumpy, inShape, outShape]
    rw [ND.reshape_shape, h1, List.dropLast_concat]
    simp [mpoIn, mpoOut, interleave, (dim_of_shape4 hC).2.1, (dim_of_shape4 hC).2.2.1]

theorem MPO.toNumpy_get {A : MPO K} (h : A.Valid) {j k : List ℕ} (hj : j.length = A.cores.length)
    (hk : k.length = A.cores.length) : A.toNumpy.get (interleave j k) = A.entry j k := by
  obtain ⟨hne, hch⟩ := h
  obtain ⟨cores⟩ := A
  match cores, hne, hch, j, k, hj, hk with
  | C :: Cs, _, ⟨n, m, t, hC, hCs⟩, x :: j, y :: k, hj, hk =>
    have hA : (C.reshape C.shape.tail).shape = [n, m] ++ [t] := by simp [hC]
    obtain ⟨h1, h2⟩ := foldl_ei_ijkl Cs hA hCs
    simp only [toNumpy, entry]
    rw [ND.reshape_drop_last_one (s := _) (by rw [h1, List.dropLast_concat])]
    have := h2 [x, y] j k 0 rfl (by simpa using hj) (by simpa using hk)
    simp only [List.cons_append, List.nil_append] at this ⊢
    simp only [interleave, List.cons_append]
    rw [this, mpoVal_cons hC]
    refine sum_congr rfl fun z _ => ?_
    rw [ND.reshape_drop_one (by simp [hC])]

/-! ### transpose, identity, `to_tt` -/

theorem mpoT_chain : ∀ {Ms : List (ND K)} {r s : ℕ}, MPOChain r Ms s →
    MPOChain r (Ms.map fun C => C.transpose [0, 2, 1, 3]) s ∧
    mpoIn (Ms.map fun C => C.transpose [0, 2, 1, 3]) = mpoOut Ms ∧
    mpoOut (Ms.map fun C => C.transpose [0, 2, 1, 3]) = mpoIn Ms ∧
    ∀ (j k : List ℕ) (a b : ℕ), mpoVal (Ms.map fun C => C.transpose [0, 2, 1, 3]) j k a b = mpoVal Ms k j a b
  | [], _, _, h => by
    refine ⟨h, rfl, rfl, fun j k a b => ?_⟩
    cases j <;> cases k <;> simp [mpoVal]
  | M :: Ms, r, s, ⟨n, m, t, hM, hMs⟩ => by
    obtain ⟨h1, h2, h3, h4⟩ := mpoT_chain hMs
    have hT := ND.transpose0213_shape hM
    refine ⟨⟨m, n, t, hT, h1⟩, ?_, ?_, ?_⟩
    · show ND.dim (M.transpose [0, 2, 1, 3]) 1 :: mpoIn (Ms.map _) = M.dim 2 :: mpoOut Ms
      rw [h2, (dim_of_shape4 hM).2.2.1, (dim_of_shape4 hT).2.1]
    · show ND.dim (M.transpose [0, 2, 1, 3]) 2 :: mpoOut (Ms.map _) = M.dim 1 :: mpoIn Ms
      rw [h3, (dim_of_shape4 hM).2.1, (dim_of_shape4 hT).2.2.1]
    · intro j k a b
      cases j with
      | nil => cases k <;> simp [mpoVal]
      | cons x j =>
        cases k with
        | nil => simp [mpoVal]
        | cons y k =>
          rw [List.map_cons, mpoVal_cons hT, mpoVal_cons hM]
          exact sum_congr rfl fun z _ => by rw [h4, ND.transpose0213_get hM]

theorem mpoT_T : ∀ {Ms : List (ND K)} {r s : ℕ}, MPOChain r Ms s →
    ((Ms.map fun C => C.transpose [0, 2, 1, 3]).map fun C => C.transpose [0, 2, 1, 3]) = Ms
  | [], _, _, _ => rfl
  | M :: Ms, r, s, ⟨n, m, t, hM, hMs⟩ => by
    have hT := ND.transpose0213_shape hM
    rw [List.map_cons, List.map_cons, mpoT_T hMs]
    congr 1
    refine ND.ext' (by rw [ND.transpose0213_shape hT, hM]) fun i hi => ?_
    rw [ND.transpose0213_shape hT] at hi
    match i, hi with
    | [x, y, z, w], _ => rw [ND.transpose0213_get hT, ND.transpose0213_get hM]

theorem MPO.T_valid {A : MPO K} (h : A.Valid) : A.T.Valid :=
  ⟨by simpa [MPO.T] using h.1, (mpoT_chain h.2).1⟩

/-- one core of the identity -/
theorem eye_core (s : ℕ) :
    let E : ND K := (ND.ofFn [s, s] fun i => if i.getD 0 0 = i.getD 1 0 then 1 else 0)
    (E.reshape [1, E.dim 0, E.dim 1, 1]).shape = [1, s, s, 1] ∧
    ∀ x y, x < s → y < s → (E.reshape [1, E.dim 0, E.dim 1, 1]).get [0, x, y, 0] = if x = y then 1 else 0 := by
  intro E
  have hE : E.shape = [s, s] := rfl
  have h0 : E.dim 0 = s ∧ E.dim 1 = s := ⟨rfl, rfl⟩
  rw [h0.1, h0.2]
  refine ⟨rfl, fun x y hx hy => ?_⟩
  have hi : InR [1, s, s, 1] [0, x, y, 0] := ⟨by omega, hx, hy, by omega, trivial⟩
  have hj : InR E.shape [x, y] := ⟨hx, hy, trivial⟩
  rw [ND.reshape_get_of_ravel hi hj (by simp [ravel, hE])]
  exact ND.ofFn_get hj

theorem eye_call_core {C : ND K} {r n t : ℕ} (hC : C.shape = [r, n, t]) :
    MPO.callCore ((ND.ofFn [n, n] fun i => if i.getD 0 0 = i.getD 1 0 then (1 : K) else 0).reshape
      [1, ND.dim (ND.ofFn [n, n] fun i => if i.getD 0 0 = i.getD 1 0 then (1 : K) else 0) 0,
        ND.dim (ND.ofFn [n, n] fun i => if i.getD 0 0 = i.getD 1 0 then (1 : K) else 0) 1, 1]) C = C := by
  obtain ⟨h1, h2⟩ := eye_core (K := K) n
  refine ND.ext' (by rw [callCore_shape h1 hC, hC]; simp) fun i hi => ?_
  rw [callCore_shape h1 hC] at hi
  match i, hi with
  | [x, y, z], ⟨hx, hy, hz, _⟩ =>
    have := callCore_get h1 hC (i := 0) (x := x) (l := 0) (y := z) y one_pos (by omega) one_pos (by omega)
    simp only [Nat.zero_mul, Nat.zero_add] at this
    rw [this, sum_eq_single y]
    · rw [h2 y y hy hy, if_pos rfl, one_mul]
    · intro j hj hne
      rw [h2 j y (mem_range.1 hj) hy, if_neg hne, zero_mul]
    · intro h; exact absurd (mem_range.2 hy) h

theorem eye_call : ∀ {Cs : List (ND K)} {r s : ℕ}, TTChain r Cs s →
    List.zipWith MPO.callCore (MPO.eye (K := K) (coreShape Cs)).cores Cs = Cs
  | [], _, _, _ => rfl
  | C :: Cs, r, s, ⟨n, t, hC, hCs⟩ => by
    have ih := eye_call hCs
    have hn := (dim_of_shape3 hC).2.1
    simp only [MPO.eye, coreShape, List.map_cons, List.zipWith_cons_cons] at ih ⊢
    rw [hn, ih, eye_call_core hC]

theorem eye_chain : ∀ (s : List ℕ), MPOChain 1 (MPO.eye (K := K) s).cores 1
  | [] => rfl
  | n :: s => ⟨n, n, 1, (eye_core n).1, eye_chain s⟩

theorem toTT_chain : ∀ {Ms : List (ND K)} {r s : ℕ}, MPOChain r Ms s →
    TTChain r (Ms.map fun C => C.reshape [C.dim 0, C.dim 1 * C.dim 2, C.dim 3]) s ∧
    ∀ (j k : List ℕ) (a b : ℕ), InR (mpoIn Ms) j → InR (mpoOut Ms) k → a < r →
      ttVal (Ms.map fun C => C.reshape [C.dim 0, C.dim 1 * C.dim 2, C.dim 3])
        (List.zipWith (· + ·) (List.zipWith (· * ·) j (mpoOut Ms)) k) a b = mpoVal Ms j k a b
  | [], r, s, h => by
    refine ⟨h, fun j k a b hj hk _ => ?_⟩
    match j, k, hj, hk with
    | [], [], _, _ => rfl
  | M :: Ms, r, s, ⟨n, m, t, hM, hMs⟩ => by
    obtain ⟨h1, h4⟩ := toTT_chain hMs
    have hd := dim_of_shape4 hM
    have hT : (M.reshape [M.dim 0, M.dim 1 * M.dim 2, M.dim 3]).shape = [r, n * m, t] := by
      rw [ND.reshape_shape, hd.1, hd.2.1, hd.2.2.1, hd.2.2.2]
    refine ⟨⟨n * m, t, hT, h1⟩, ?_⟩
    intro j k a b hj hk ha
    match j, k, hj, hk with
    | x :: j, y :: k, hj, hk =>
      have hx : x < n := by have : x < M.dim 1 := hj.1; omega
      have hy : y < m := by have : y < M.dim 2 := hk.1; omega
      have e : List.zipWith (· + ·) (List.zipWith (· * ·) (x :: j) (mpoOut (M :: Ms))) (y :: k)
        = (x * m + y) :: List.zipWith (· + ·) (List.zipWith (· * ·) j (mpoOut Ms)) k := by
        simp [mpoOut, hd.2.2.1]
      rw [e, List.map_cons, ttVal_cons hT, mpoVal_cons hM]
      refine sum_congr rfl fun z hz => ?_
      rw [h4 j k z b hj.2 hk.2 (mem_range.1 hz)]
      congr 1
      rw [hd.1, hd.2.1, hd.2.2.1, hd.2.2.2]
      apply ND.reshape_get_of_ravel
      · exact ⟨ha, (ND.lt_mul_iff hy).2 hx, mem_range.1 hz, trivial⟩
      · rw [hM]; exact ⟨ha, hx, hy, mem_range.1 hz, trivial⟩
      · rw [hM]; simp [ravel]; ring

end
end TTS
