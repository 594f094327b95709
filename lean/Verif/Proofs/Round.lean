import Verif.Proofs.EckartYoung
import Verif.Proofs.OrthTT

/-! The rounding sweep. -/

namespace TTS

open Finset

/-- The indices of a shape as a finite set. -/
def idxSet (s : List ℕ) : Finset (List ℕ) := (allIdx s).toFinset

theorem mem_idxSet {s i : List ℕ} : i ∈ idxSet s ↔ InR s i := by rw [idxSet, List.mem_toFinset, mem_allIdx]

theorem sumIdx_eq_sum {s : List ℕ} (f : List ℕ → ℝ) : sumIdx s f = ∑ i ∈ idxSet s, f i := by
  have h : ∀ i ∈ idxSet s, f i = sumIdx s fun j => if j = i then f j else 0 := by
    intro i hi
    exact (sumIdx_ite_eq (mem_idxSet.1 hi) f).symm
  rw [sum_congr rfl h, ← sumIdx_sum]
  refine sumIdx_congr fun j hj => ?_
  rw [sum_eq_single j]
  · rw [if_pos rfl]
  · intro i _ hij; rw [if_neg (Ne.symm hij)]
  · intro h'; exact absurd (mem_idxSet.2 hj) h'

theorem roundLoop_some (la : LinAlg) (eps : ℝ) (mr : List ℕ) (US C : ND ℝ) (Cs : List (ND ℝ)) :
    TT.roundLoop la eps mr (some US) (C :: Cs) = TT.roundLoop la eps mr none (ND.es_ijk_kl_ijl C US :: Cs) := by
  cases Cs <;> rfl

theorem keepRank_pos (S : List ℝ) (eps : ℝ) (m : ℕ) : 1 ≤ keepRank S eps m := le_max_left _ _

theorem keepRank_le (S : List ℝ) (eps : ℝ) (m : ℕ) (h : 1 ≤ S.length) : keepRank S eps m ≤ S.length :=
  max_le h ((min_le_left _ _).trans List.countP_le_length)

theorem keepRank_le_max (S : List ℝ) (eps : ℝ) (m : ℕ) : keepRank S eps m ≤ max 1 m :=
  max_le_max le_rfl (min_le_right _ _)

theorem ND.diag_get (v : List ℝ) (x y : ℕ) :
    (ND.diag v).get [x, y] = if x = y then v.getD x 0 else 0 := by
  by_cases h : x < v.length ∧ y < v.length
  · rw [ND.diag, ND.ofFn_get (show InR [v.length, v.length] [x, y] from ⟨h.1, h.2, trivial⟩)]; rfl
  · rw [ND.supp _ _ (fun hi => h (by
      have hi' : InR [v.length, v.length] [x, y] := hi
      exact ⟨hi'.1, hi'.2.1⟩))]
    split_ifs with hxy
    · subst hxy; rw [List.getD_eq_default _ _ (by omega)]
    · rfl

/-- One step of the rounding sweep. -/
theorem roundLoop_step {la : LinAlg} (hs : la.SVDOk) (eps : ℝ) (mr : List ℕ) {C : ND ℝ} (D : ND ℝ) (Ds : List (ND ℝ))
    {r n s : ℕ} (hC : C.shape = [r, n, s]) (h0 : 0 < r) (h1 : 0 < n) (h2 : 0 < s) :
    ∃ (U : ND ℝ) (S : List ℝ) (Vt : ND ℝ) (k : ℕ) (US V : ND ℝ),
      IsSVD (C.reshape [r, n * s]) U S Vt r (n * s) r (n * s) ∧ k = keepRank S eps (mr.getD Ds.length 0) ∧
      1 ≤ k ∧ k ≤ min r (n * s) ∧ US.shape = [r, k] ∧ (∀ x, ∀ t < k, US.get [x, t] = U.get [x, t] * S.getD t 0) ∧
      V.shape = [k, n, s] ∧ (∀ t < k, ∀ i < n, ∀ y < s, V.get [t, i, y] = Vt.get [t, i * s + y]) ∧
      V.RightOrthogonal ∧
      TT.roundLoop la eps mr none (C :: D :: Ds)
        = (TT.roundLoop la eps mr none (ND.es_ijk_kl_ijl D US :: Ds)).map fun o => (V :: o.1, S.drop k :: o.2) := by
  obtain ⟨d0, d1, d2⟩ := dim_of_shape3 hC
  have hsvd := hs (C.reshape [r, n * s]) r (n * s) rfl
  generalize hUSV : la.svd (C.reshape [r, n * s]) = USV at hsvd
  obtain ⟨U, S, Vt⟩ := USV
  simp only at hsvd
  have hmin : 1 ≤ min r (n * s) := le_min h0 (Nat.mul_pos h1 h2)
  obtain ⟨k, hk⟩ : ∃ k, k = keepRank S eps (mr.getD Ds.length 0) := ⟨_, rfl⟩
  have hkl : k ≤ min r (n * s) := by
    rw [hk, ← hsvd.length]; exact keepRank_le _ _ _ (by rw [hsvd.length]; exact hmin)
  have hk1 : 1 ≤ k := by rw [hk]; exact keepRank_pos _ _ _
  have hUc : (U.cols 0 k).shape = [r, k] := by
    rw [ND.cols_shape hsvd.shapeU]; congr 2; omega
  have hdiag : (ND.diag (S.take k)).shape = [k, k] := by
    show [(S.take k).length, (S.take k).length] = _
    rw [List.length_take, hsvd.length, min_eq_left hkl]
  have hVr : (Vt.rows 0 k).shape = [k, n * s] := by
    rw [ND.rows_shape hsvd.shapeV]; congr 1; omega
  have hVg : ∀ t < k, ∀ i < n, ∀ y < s, ((Vt.rows 0 k).reshape [k, n, s]).get [t, i, y] = Vt.get [t, i * s + y] := by
    intro t ht i hi y hy
    rw [ND.reshape_split23 hVr t i y hy, ND.rows_get hsvd.shapeV 0 k t _ (by omega), zero_add]
  refine ⟨U, S, Vt, k, (U.cols 0 k).matmul (ND.diag (S.take k)), (Vt.rows 0 k).reshape [k, n, s], hsvd, hk, hk1, hkl,
    ND.matmul_shape' hUc hdiag, ?_, rfl, hVg, ?_, ?_⟩
  · intro x t ht
    rw [ND.matmul_get hUc hdiag, sum_eq_single t]
    · rw [ND.cols_get hsvd.shapeU 0 k x t (by omega), zero_add, ND.diag_get, if_pos rfl]
      congr 1
      rw [List.getD_eq_getElem?_getD, List.getElem?_take, if_pos ht, ← List.getD_eq_getElem?_getD]
    · intro y _ hy; rw [ND.diag_get, if_neg hy, mul_zero]
    · intro h; exact absurd (mem_range.2 ht) h
  · intro x hx y hy
    have hx : x < k := hx
    have hy : y < k := hy
    show ∑ i ∈ range n, ∑ b ∈ range s, _ = _
    rw [← hsvd.orthV x (by omega) y (by omega), range_mul_sum]
    refine sum_congr rfl fun i hi => sum_congr rfl fun b hb => ?_
    rw [hVg x hx i (by simpa using hi) b (by simpa using hb), hVg y hy i (by simpa using hi) b (by simpa using hb)]
  · have hSne : S ≠ [] := by intro h; have := hsvd.length; rw [h] at this; simp at this; omega
    have hre : (Vt.rows 0 k).reshape? [k, n, s] = .ok ((Vt.rows 0 k).reshape [k, n, s]) := by
      unfold ND.reshape?; rw [if_pos (by rw [hVr]; simp)]
    rw [TT.roundLoop]
    rw [d0, d1, d2, hUSV]
    dsimp only
    rw [if_neg hSne, ← hk, hre]
    dsimp only
    rw [roundLoop_some]
    cases TT.roundLoop la eps mr none (ND.es_ijk_kl_ijl D ((U.cols 0 k).matmul (ND.diag (S.take k))) :: Ds) <;> rfl

theorem coreShape_cons (C : ND ℝ) (Cs : List (ND ℝ)) : coreShape (C :: Cs) = C.dim 1 :: coreShape Cs := rfl

/-- Shapes, ranks and right-orthogonality after rounding. -/
theorem roundLoop_shape {la : LinAlg} (hs : la.SVDOk) (eps : ℝ) (mr : List ℕ) : ∀ (Cs : List (ND ℝ)) (C : ND ℝ)
    (r n s : ℕ), C.shape = [r, n, s] → TTChain 1 Cs.reverse r → 0 < n → 0 < s →
    (∀ D ∈ C :: Cs, 0 < D.dim 0 ∧ 0 < D.dim 1) →
    ∃ N disc, TT.roundLoop la eps mr none (C :: Cs) = .ok (N, disc) ∧ TTChain 1 N.reverse s ∧
      coreShape N = coreShape (C :: Cs) ∧ N.length = Cs.length + 1 ∧ disc.length = Cs.length ∧
      (∀ D ∈ N.dropLast, D.RightOrthogonal) ∧
      (∀ k < Cs.length, 1 ≤ bondOf N k ∧ bondOf N k ≤ max 1 (mr.getD (Cs.length - 1 - k) 0) ∧
        bondOf N k ≤ bondOf (C :: Cs) k ∧
        bondOf N k ≤ (coreShape N).getD k 0 * (N.getD k (ND.zeros [])).dim 2)
  | [], C, r, n, s, hC, hCs, hn, hs0, hpos => by
    cases hCs
    exact ⟨[C], [], rfl, ⟨n, s, hC, rfl⟩, rfl, rfl, rfl, by simp, fun k hk => by simp at hk⟩
  | D :: Ds, C, r, n, s, hC, hCs, hn, hs0, hpos => by
    have hr : 0 < r := by have := (hpos C List.mem_cons_self).1; rwa [(dim_of_shape3 hC).1] at this
    rw [List.reverse_cons] at hCs
    obtain ⟨q, hD1, m, t, hD2, hD3⟩ := hCs.split
    cases hD3
    obtain ⟨U, S, Vt, k, US, V, hsvd, hk, hk1, hkl, hUS, hUSg, hV, hVg, hVo, hloop⟩ :=
      roundLoop_step hs eps mr D Ds hC hr hn hs0
    have hD' : (ND.es_ijk_kl_ijl D US).shape = [q, m, k] := ND.es_ijk_kl_ijl_shape hD2 hUS
    have hDp := hpos D (by simp)
    rw [(dim_of_shape3 hD2).1, (dim_of_shape3 hD2).2.1] at hDp
    obtain ⟨N, disc, n1, n2, n3, n4, n5, n6, n7⟩ := roundLoop_shape hs eps mr Ds (ND.es_ijk_kl_ijl D US) q m k hD' hD1
      hDp.2 hk1 (by
        intro E hE
        rcases List.mem_cons.1 hE with rfl | hE
        · rw [(dim_of_shape3 hD').1, (dim_of_shape3 hD').2.1]; exact hDp
        · exact hpos E (by simp [hE]))
    have hNne : N ≠ [] := by intro h; rw [h] at n4; simp at n4
    have hcs : coreShape (ND.es_ijk_kl_ijl D US :: Ds) = coreShape (D :: Ds) := by
      rw [coreShape_cons, coreShape_cons, (dim_of_shape3 hD').2.1, (dim_of_shape3 hD2).2.1]
    refine ⟨V :: N, S.drop k :: disc, by rw [hloop, n1]; rfl, ?_, ?_, by simp [n4], by simp [n5], ?_, ?_⟩
    · rw [List.reverse_cons]; exact n2.append ⟨n, s, hV, rfl⟩
    · rw [coreShape_cons, coreShape_cons, n3, hcs, (dim_of_shape3 hV).2.1, (dim_of_shape3 hC).2.1]
    · intro E hE
      rw [List.dropLast_cons_of_ne_nil hNne] at hE
      rcases List.mem_cons.1 hE with rfl | hE
      · exact hVo
      · exact n6 E hE
    · intro j hj
      cases j with
      | zero =>
        have e0 : bondOf (V :: N) 0 = k := (dim_of_shape3 hV).1
        have e1 : bondOf (C :: D :: Ds) 0 = r := (dim_of_shape3 hC).1
        rw [e0, e1]
        refine ⟨hk1, ?_, by omega, ?_⟩
        · have : (D :: Ds).length - 1 - 0 = Ds.length := by simp
          rw [this, hk]; exact keepRank_le_max _ _ _
        · show k ≤ V.dim 1 * V.dim 2
          rw [(dim_of_shape3 hV).2.1, (dim_of_shape3 hV).2.2]; omega
      | succ j =>
        have hj : j < Ds.length := by simpa using hj
        obtain ⟨m1, m2, m3, m4⟩ := n7 j hj
        have e1 : bondOf (C :: D :: Ds) (j + 1) = bondOf (ND.es_ijk_kl_ijl D US :: Ds) j := by
          cases j with
          | zero => show D.dim 0 = (ND.es_ijk_kl_ijl D US).dim 0; rw [(dim_of_shape3 hD').1, (dim_of_shape3 hD2).1]
          | succ j => rfl
        have e2 : (D :: Ds).length - 1 - (j + 1) = Ds.length - 1 - j := by simp; omega
        rw [e1, e2]
        exact ⟨m1, m2, m3, m4⟩

/-! ### accuracy -/

/-- Sum of squares of a list. -/
def sumSq (l : List ℝ) : ℝ := (l.map fun x => x ^ 2).sum

theorem sumSq_drop (S : List ℝ) (k : ℕ) : sumSq (S.drop k) = ∑ t ∈ Ico k S.length, S.getD t 0 ^ 2 := by
  by_cases h : k ≤ S.length
  · rw [sum_Ico_eq_sum_range]
    unfold sumSq
    have : ∀ l : List ℝ, (l.map fun x => x ^ 2).sum = ∑ t ∈ range l.length, l.getD t 0 ^ 2 := by
      intro l
      induction l with
      | nil => simp
      | cons a l ih => rw [List.map_cons, List.sum_cons, List.length_cons, sum_range_succ', ih, add_comm]; rfl
    rw [this, List.length_drop]
    refine sum_congr rfl fun t _ => ?_
    congr 1
    rw [List.getD_eq_getElem?_getD, List.getElem?_drop, ← List.getD_eq_getElem?_getD]
  · rw [List.drop_eq_nil_of_le (by omega), Ico_eq_empty (by omega)]; rfl

/-- The partial product `(p, y) ↦ (C₁ ⋯ C_k)[p][0, y]` of the cores given last one first. -/
noncomputable def revVal (Cs : List (ND ℝ)) (p : List ℕ) (y : ℕ) : ℝ := ttVal Cs.reverse p 0 y

theorem revVal_cons {C : ND ℝ} {Cs : List (ND ℝ)} {r n s : ℕ} (hC : C.shape = [r, n, s])
    (hCs : TTChain 1 Cs.reverse r) {p : List ℕ} (hp : p.length = Cs.length) (i y : ℕ) :
    revVal (C :: Cs) (p ++ [i]) y = ∑ x ∈ range r, revVal Cs p x * C.get [x, i, y] := by
  unfold revVal
  rw [List.reverse_cons, ttVal_concat hCs hC p (by simpa using hp) i 0 y one_pos]

/-- Sums over the indices of `C :: Cs` (last core first). -/
theorem sum_rev_cons {C : ND ℝ} {Cs : List (ND ℝ)} {r n s : ℕ} (hC : C.shape = [r, n, s]) (F : List ℕ → ℕ → ℝ) :
    ∑ y ∈ range s, sumIdx (coreShape (C :: Cs)).reverse (fun p => F p y)
      = ∑ p ∈ idxSet (coreShape Cs).reverse, ∑ i ∈ range n, ∑ y ∈ range s, F (p ++ [i]) y := by
  rw [coreShape_cons, List.reverse_cons, (dim_of_shape3 hC).2.1]
  simp only [sumIdx_append]
  have : ∀ y, sumIdx (coreShape Cs).reverse (fun p => sumIdx [n] fun q => F (p ++ q) y)
      = ∑ p ∈ idxSet (coreShape Cs).reverse, ∑ i ∈ range n, F (p ++ [i]) y := by
    intro y
    rw [sumIdx_eq_sum]
    rfl
  simp only [this]
  rw [sum_comm]
  exact sum_congr rfl fun p _ => sum_comm

/-- What one rounding step does to the partial products. -/
structure RoundStep (C D : ND ℝ) (Ds : List (ND ℝ)) (U : ND ℝ) (S : List ℝ) (Vt US V : ND ℝ)
    (q m r n s k : ℕ) : Prop where
  hC : C.shape = [r, n, s]
  hD : D.shape = [q, m, r]
  hDs : TTChain 1 Ds.reverse q
  svd : IsSVD (C.reshape [r, n * s]) U S Vt r (n * s) r (n * s)
  kle : k ≤ min r (n * s)
  hUS : US.shape = [r, k]
  hUSg : ∀ x, ∀ t < k, US.get [x, t] = U.get [x, t] * S.getD t 0
  hV : V.shape = [k, n, s]
  hVg : ∀ t < k, ∀ i < n, ∀ y < s, V.get [t, i, y] = Vt.get [t, i * s + y]
  orth : ∀ E ∈ D :: Ds, E.LeftOrthogonal

namespace RoundStep
variable {C D : ND ℝ} {Ds : List (ND ℝ)} {U : ND ℝ} {S : List ℝ} {Vt US V : ND ℝ} {q m r n s k : ℕ}

theorem chain (h : RoundStep C D Ds U S Vt US V q m r n s k) : TTChain 1 (D :: Ds).reverse r := by
  rw [List.reverse_cons]; exact h.hDs.append ⟨m, r, h.hD, rfl⟩

theorem hD' (h : RoundStep C D Ds U S Vt US V q m r n s k) : (ND.es_ijk_kl_ijl D US).shape = [q, m, k] :=
  ND.es_ijk_kl_ijl_shape h.hD h.hUS

theorem shapeD' (h : RoundStep C D Ds U S Vt US V q m r n s k) :
    coreShape (ND.es_ijk_kl_ijl D US :: Ds) = coreShape (D :: Ds) := by
  rw [coreShape_cons, coreShape_cons, (dim_of_shape3 h.hD').2.1, (dim_of_shape3 h.hD).2.1]

/-- The left singular vectors, extended to the full index. -/
noncomputable def left (D : ND ℝ) (Ds : List (ND ℝ)) (U : ND ℝ) (r : ℕ) (t : ℕ) (p : List ℕ) : ℝ :=
  ∑ x ∈ range r, revVal (D :: Ds) p x * U.get [x, t]

/-- The partial products of left-orthogonal cores are orthonormal. -/
theorem orthL (h : RoundStep C D Ds U S Vt US V q m r n s k) :
    Orthn (idxSet (coreShape (D :: Ds)).reverse) r fun x p => revVal (D :: Ds) p x := by
  intro x hx y hy
  have := ttVal_gram h.chain (fun E hE => h.orth E (List.mem_reverse.1 hE)) x hx y hy
  rw [sum_range_one, show coreShape (D :: Ds).reverse = (coreShape (D :: Ds)).reverse from List.map_reverse,
    sumIdx_eq_sum] at this
  exact this

theorem orthLeft (h : RoundStep C D Ds U S Vt US V q m r n s k) :
    Orthn (idxSet (coreShape (D :: Ds)).reverse) r (left D Ds U r) := by
  intro a ha b hb
  have := h.orthL.inner (fun x => U.get [x, a]) (fun x => U.get [x, b])
  rw [h.svd.orthU a ha b hb] at this
  rw [← this]
  refine sum_congr rfl fun p _ => ?_
  unfold left
  simp only [mul_comm]

theorem orthV (h : RoundStep C D Ds U S Vt US V q m r n s k) :
    Orthn (range (n * s)) (n * s) fun t j => Vt.get [t, j] := h.svd.orthV

/-- The partial product before the step. -/
theorem val (h : RoundStep C D Ds U S Vt US V q m r n s k) {p : List ℕ} (hp : p.length = (D :: Ds).length)
    {i y : ℕ} (hi : i < n) (hy : y < s) :
    revVal (C :: D :: Ds) (p ++ [i]) y
      = ∑ t ∈ range (min r (n * s)), left D Ds U r t p * S.getD t 0 * Vt.get [t, i * s + y] := by
  rw [revVal_cons h.hC h.chain hp]
  have e : ∀ x ∈ range r, revVal (D :: Ds) p x * C.get [x, i, y] = ∑ t ∈ range (min r (n * s)),
      revVal (D :: Ds) p x * U.get [x, t] * S.getD t 0 * Vt.get [t, i * s + y] := by
    intro x hx
    rw [← ND.reshape_merge23 h.hC x i y hy, ← h.svd.mul x (by simpa using hx) (i * s + y) ((ND.lt_mul_iff hy).2 hi),
      mul_sum]
    exact sum_congr rfl fun t _ => by ring
  rw [sum_congr rfl e, sum_comm]
  refine sum_congr rfl fun t _ => ?_
  rw [left, sum_mul, sum_mul]

/-- The input of the next step. -/
theorem next (h : RoundStep C D Ds U S Vt US V q m r n s k) {p : List ℕ} (hp : p.length = (D :: Ds).length)
    {t : ℕ} (ht : t < k) :
    revVal (ND.es_ijk_kl_ijl D US :: Ds) p t = left D Ds U r t p * S.getD t 0 := by
  have hl : p ≠ [] := by intro h; rw [h] at hp; simp at hp
  obtain ⟨p', i, rfl⟩ : ∃ p' i, p = p' ++ [i] := ⟨p.dropLast, p.getLast hl, (List.dropLast_append_getLast hl).symm⟩
  have hp' : p'.length = Ds.length := by simpa using hp
  rw [revVal_cons h.hD' h.hDs hp', left]
  have e : ∀ x ∈ range r, revVal (D :: Ds) (p' ++ [i]) x * U.get [x, t]
      = ∑ w ∈ range q, revVal Ds p' w * D.get [w, i, x] * U.get [x, t] := by
    intro x _
    rw [revVal_cons h.hD h.hDs hp', sum_mul]
  rw [sum_congr rfl e, sum_comm, sum_mul]
  refine sum_congr rfl fun w _ => ?_
  rw [ND.es_ijk_kl_ijl_get h.hD h.hUS, mul_sum, sum_mul]
  refine sum_congr rfl fun x _ => ?_
  rw [h.hUSg x t ht]; ring

end RoundStep

/-- The squared error of the sweep is the sum of the squares of the singular values left out. -/
theorem roundLoop_error {la : LinAlg} (hs : la.SVDOk) (eps : ℝ) (mr : List ℕ) : ∀ (Cs : List (ND ℝ)) (C : ND ℝ)
    (r n s : ℕ), C.shape = [r, n, s] → TTChain 1 Cs.reverse r → 0 < n → 0 < s →
    (∀ D ∈ C :: Cs, 0 < D.dim 0 ∧ 0 < D.dim 1) → (∀ D ∈ Cs, D.LeftOrthogonal) →
    ∀ N disc, TT.roundLoop la eps mr none (C :: Cs) = .ok (N, disc) →
      ∑ y ∈ range s, sumIdx (coreShape (C :: Cs)).reverse (fun p => (revVal (C :: Cs) p y - revVal N p y) ^ 2)
        = (disc.map sumSq).sum
  | [], C, r, n, s, hC, hCs, hn, hs0, hpos, hO, N, disc, h => by
    have : ([C], []) = (N, disc) := by simpa [TT.roundLoop] using h
    cases this
    simp only [sub_self, List.map_nil, List.sum_nil]
    exact sum_eq_zero fun y _ => sumIdx_eq_zero fun p _ => by simp
  | D :: Ds, C, r, n, s, hC, hCs, hn, hs0, hpos, hO, N, disc, h => by
    have hr : 0 < r := by have := (hpos C List.mem_cons_self).1; rwa [(dim_of_shape3 hC).1] at this
    rw [List.reverse_cons] at hCs
    obtain ⟨q, hD1, m, t, hD2, hD3⟩ := hCs.split
    cases hD3
    obtain ⟨U, S, Vt, k, US, V, hsvd, hk, hk1, hkl, hUS, hUSg, hV, hVg, hVo, hloop⟩ :=
      roundLoop_step hs eps mr D Ds hC hr hn hs0
    have hst : RoundStep C D Ds U S Vt US V q m r n s k := ⟨hC, hD2, hD1, hsvd, hkl, hUS, hUSg, hV, hVg, hO⟩
    have hDp := hpos D (by simp)
    rw [(dim_of_shape3 hD2).1, (dim_of_shape3 hD2).2.1] at hDp
    have hpos' : ∀ E ∈ ND.es_ijk_kl_ijl D US :: Ds, 0 < E.dim 0 ∧ 0 < E.dim 1 := by
      intro E hE
      rcases List.mem_cons.1 hE with rfl | hE
      · rw [(dim_of_shape3 hst.hD').1, (dim_of_shape3 hst.hD').2.1]; exact hDp
      · exact hpos E (by simp [hE])
    obtain ⟨N', disc', n1, n2, n3, n4, -⟩ := roundLoop_shape hs eps mr Ds _ q m k hst.hD' hD1 hDp.2 hk1 hpos'
    have IH := roundLoop_error hs eps mr Ds _ q m k hst.hD' hD1 hDp.2 hk1 hpos' (fun E hE => hO E (by simp [hE]))
      N' disc' n1
    have hND : (N, disc) = (V :: N', S.drop k :: disc') := by
      rw [hloop, n1] at h
      injection h with h
      exact h.symm
    obtain ⟨rfl, rfl⟩ := Prod.mk.inj hND
    rw [sum_rev_cons hC]
    rw [List.map_cons, List.sum_cons, ← IH, hst.shapeD', sumSq_drop, hsvd.length]
    -- the coefficients of the difference
    let b : List ℕ → ℕ → ℝ := fun p t =>
      if t < k then revVal (ND.es_ijk_kl_ijl D US :: Ds) p t - revVal N' p t
      else RoundStep.left D Ds U r t p * S.getD t 0
    have hdiff : ∀ p ∈ idxSet (coreShape (D :: Ds)).reverse, ∑ i ∈ range n, ∑ y ∈ range s,
        (revVal (C :: D :: Ds) (p ++ [i]) y - revVal (V :: N') (p ++ [i]) y) ^ 2
          = ∑ t ∈ range (min r (n * s)), b p t ^ 2 := by
      intro p hp
      have hpl : p.length = (D :: Ds).length := by
        rw [(mem_idxSet.1 hp).length, List.length_reverse, coreShape_length]
      rw [← (hst.orthV.mono (min_le_right r (n * s))).parseval, range_mul_sum]
      refine sum_congr rfl fun i hi => sum_congr rfl fun y hy => ?_
      have hi : i < n := by simpa using hi
      have hy : y < s := by simpa using hy
      congr 1
      rw [hst.val hpl hi hy, revVal_cons hV n2 (by rw [hpl, n4, List.length_cons]),
        ← sum_range_add_sum_Ico _ hkl, ← sum_range_add_sum_Ico (fun t => b p t * _) hkl, add_sub_right_comm,
        ← sum_sub_distrib]
      congr 1
      · refine sum_congr rfl fun t ht => ?_
        have ht : t < k := by simpa using ht
        show _ = b p t * _
        simp only [b, if_pos ht]
        rw [hst.next hpl ht, hVg t ht i hi y hy]; ring
      · refine sum_congr rfl fun t ht => ?_
        have ht : ¬ t < k := by simp at ht; omega
        show _ = b p t * _
        simp only [b, if_neg ht]
    rw [sum_congr rfl hdiff]
    have hsplit : ∀ p, ∑ t ∈ range (min r (n * s)), b p t ^ 2
        = ∑ t ∈ range k, (revVal (ND.es_ijk_kl_ijl D US :: Ds) p t - revVal N' p t) ^ 2
          + ∑ t ∈ Ico k (min r (n * s)), S.getD t 0 ^ 2 * RoundStep.left D Ds U r t p ^ 2 := by
      intro p
      rw [← sum_range_add_sum_Ico _ hkl]
      congr 1
      · exact sum_congr rfl fun t ht => by simp only [b, if_pos (mem_range.1 ht)]
      · refine sum_congr rfl fun t ht => ?_
        have ht : ¬ t < k := by simp at ht; omega
        simp only [b, if_neg ht]; ring
    simp only [hsplit]
    rw [sum_add_distrib, add_comm]
    congr 1
    · rw [sum_comm]
      refine sum_congr rfl fun t ht => ?_
      rw [← mul_sum]
      have htr : t < r := by have := (mem_Ico.1 ht).2; omega
      have := hst.orthLeft t htr t htr
      rw [if_pos rfl] at this
      simp only [sq (RoundStep.left D Ds U r t _)]
      rw [this, mul_one]
    · rw [sum_comm]
      exact sum_congr rfl fun t _ => by rw [sumIdx_eq_sum]

end TTS
