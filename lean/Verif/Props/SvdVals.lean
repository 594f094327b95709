import Verif.Props.Round
import Verif.Proofs.SvdVals

/-!
# C63: `svdvals` returns the singular values of the unfoldings
-/

namespace TTS.Props

open Finset TTS.Spec

theorem leftRanks_length : ∀ (r : ℕ) (ns ks : List ℕ), ks.length ≤ ns.length → (leftRanks r ns ks).length = ks.length
  | _, [], [], _ => rfl
  | _, _ :: _, [], _ => rfl
  | r, n :: ns, k :: ks, h => by
    rw [leftRanks, List.length_cons, leftRanks_length _ ns ks (by simpa using h)]; rfl

theorem leftRanks_get : ∀ (r : ℕ) (ns ks : List ℕ) (k : ℕ), k < ks.length → ks.length ≤ ns.length →
    (leftRanks r ns ks).getD k 0 = min ((r :: leftRanks r ns ks).getD k 0 * ns.getD k 0) (ks.getD k 0)
  | _, [], ks, k, hk, h => by have : ks.length ≤ 0 := h; omega
  | r, n :: ns, k :: ks, 0, _, _ => rfl
  | r, n :: ns, m :: ks, k + 1, hk, h => by
    have := leftRanks_get (min (r * n) m) ns ks k (by simpa using hk) (by simpa using h)
    rw [leftRanks]
    exact this

/-- Ranks that satisfy the recurrence are the `leftRanks`. -/
theorem leftRanks_unique {ns ks rs : List ℕ} (h : ks.length ≤ ns.length)
    (hr : ∀ k < ks.length, rs.getD k 0 = min ((1 :: rs).getD k 0 * ns.getD k 0) (ks.getD k 0)) :
    ∀ k < ks.length, rs.getD k 0 = (leftRanks 1 ns ks).getD k 0
  | 0, hk => by rw [hr 0 hk, leftRanks_get 1 ns ks 0 hk h]; rfl
  | k + 1, hk => by
    rw [hr (k + 1) hk, leftRanks_get 1 ns ks (k + 1) hk h, List.getD_cons_succ, List.getD_cons_succ,
      leftRanks_unique h hr k (by omega)]

/-- The condition on the cores of the orthogonalised train. -/
theorem fits_iff {X O : TT ℝ} (hX : X.Valid) (hp : X.Pos) (hO : O.Valid) (hsh : O.shape = X.shape)
    (hl : O.rank.length = X.rank.length)
    (hrk : ∀ k < X.rank.length, O.rank.getD k 0 = min ((1 :: O.rank).getD k 0 * X.shape.getD k 0) (X.rank.getD k 0))
    {C : ND ℝ} {Cs : List (ND ℝ)} (hrev : O.cores.reverse = C :: Cs) :
    (∀ j < Cs.length, bondOf (C :: Cs) j = (leftRanks 1 X.shape X.rank).getD (Cs.length - 1 - j) 0) ∧
    (FitsRight X.shape X.rank ↔
      ∀ j < Cs.length, bondOf (C :: Cs) j ≤ (coreShape (C :: Cs)).getD j 0 * ((C :: Cs).getD j (ND.zeros [])).dim 2) := by
  have hXl := rank_length hX
  have hOl : O.cores.length = Cs.length + 1 := by rw [← List.length_reverse, hrev]; rfl
  have hrl : X.rank.length = Cs.length := by rw [← hl]; simp [TT.rank, hOl]
  obtain ⟨r, n, hc, h0, h1⟩ := exists_cores hO.2
  have hsn : ∀ k < O.cores.length, X.shape.getD k 0 = n k := by
    intro k hk
    rw [← hsh]
    show (O.cores.map fun C => C.dim 1).getD k 0 = n k
    rw [getD_map_lt _ _ k hk (ND.zeros [])]
    exact (dim_of_shape3 (hc k hk)).2.1
  have hrr : ∀ k < X.rank.length, O.rank.getD k 0 = r (k + 1) := by
    intro k hk
    unfold TT.rank
    rw [getD_map_lt _ _ k (by simp [hOl]; omega) (ND.zeros []), List.getD_eq_getElem?_getD, List.getElem?_tail,
      ← List.getD_eq_getElem?_getD]
    exact (dim_of_shape3 (hc (k + 1) (by omega))).1
  have hget : ∀ j < Cs.length, (C :: Cs).getD j (ND.zeros []) = O.cores.getD (Cs.length - j) (ND.zeros []) := by
    intro j hj
    rw [← hrev, List.getD_eq_getElem?_getD, List.getElem?_reverse (by omega), ← List.getD_eq_getElem?_getD, hOl]
    rw [show Cs.length + 1 - 1 - j = Cs.length - j by omega]
  have hbond : ∀ j < Cs.length, bondOf (C :: Cs) j = r (Cs.length - j) := by
    intro j hj
    unfold bondOf
    rw [hget j hj]
    exact (dim_of_shape3 (hc _ (by omega))).1
  have hcsd : ∀ j < Cs.length, (coreShape (C :: Cs)).getD j 0 = n (Cs.length - j) := by
    intro j hj
    show ((C :: Cs).map fun C => C.dim 1).getD j 0 = _
    rw [getD_map_lt _ _ j (by simp; omega) (ND.zeros []), hget j hj]
    exact (dim_of_shape3 (hc _ (by omega))).2.1
  have hd2 : ∀ j < Cs.length, ((C :: Cs).getD j (ND.zeros [])).dim 2 = r (Cs.length - j + 1) := by
    intro j hj
    rw [hget j hj]
    exact (dim_of_shape3 (hc _ (by omega))).2.2
  have hlr := leftRanks_unique (by omega) hrk
  refine ⟨fun j hj => ?_, ?_⟩
  · rw [hbond j hj, ← hlr _ (by omega), hrr _ (by omega)]
    congr 1; omega
  · -- the condition at one bond
    have key : ∀ k < X.rank.length, ((leftRanks 1 X.shape X.rank).getD k 0
        ≤ X.shape.getD (k + 1) 0 * (X.rank ++ [1]).getD (k + 1) 0 ↔ r (k + 1) ≤ n (k + 1) * r (k + 2)) := by
      intro k hk
      rw [← hlr k hk, hrr k hk, hsn (k + 1) (by omega)]
      by_cases hk' : k + 1 < X.rank.length
      · have e1 := hrk (k + 1) hk'
        rw [hrr (k + 1) hk', List.getD_cons_succ, hrr k hk, hsn (k + 1) (by omega)] at e1
        rw [List.getD_append _ _ _ _ hk', e1]
        have hn : 0 < n (k + 1) := by
          rw [← hsn (k + 1) (by omega)]
          apply hp.1
          rw [List.getD_eq_getElem _ _ (by omega)]; exact List.getElem_mem _
        constructor
        · intro h
          rw [← Nat.mul_min_mul_left]
          refine le_min ?_ h
          calc r (k + 1) = 1 * (r (k + 1) * 1) := by ring
            _ ≤ n (k + 1) * (r (k + 1) * n (k + 1)) := Nat.mul_le_mul hn (Nat.mul_le_mul le_rfl hn)
        · intro h
          exact h.trans (Nat.mul_le_mul le_rfl (min_le_right _ _))
      · have hke : k + 1 = X.rank.length := by omega
        rw [hke, List.getD_append_right _ _ _ _ le_rfl]
        have : r (k + 2) = 1 := by rw [show k + 2 = O.cores.length by omega]; exact h1
        rw [this]; simp
    constructor
    · intro hf j hj
      have := (key (Cs.length - 1 - j) (by omega)).1 (hf _ (by omega))
      rw [hbond j hj, hcsd j hj, hd2 j hj]
      rwa [show Cs.length - 1 - j + 1 = Cs.length - j by omega, show Cs.length - 1 - j + 2 = Cs.length - j + 1 by omega]
        at this
    · intro hb k hk
      refine (key k hk).2 ?_
      have := hb (Cs.length - 1 - k) (by omega)
      rw [hbond _ (by omega), hcsd _ (by omega), hd2 _ (by omega)] at this
      rwa [show Cs.length - (Cs.length - 1 - k) = k + 1 by omega] at this

/-- **C63.** For a tensor train with positive mode sizes and ranks none of whose bonds is larger than the modes to its
right allow, `svdvals` returns one list per mode: the entry of mode `mu ≥ 1` (counted from 0) holds the singular values of
the unfolding with the first `mu` modes as rows, as many as the rank there after orthogonalisation, and the
entry of mode 0 holds again those of the unfolding with the first mode as rows. -/
theorem C63 {la : LinAlg} (hq : la.QROk) (hs : la.SVDOk) {X : TT ℝ} (hX : X.Valid) (hp : X.Pos)
    (hfit : FitsRight X.shape X.rank) :
    ∃ L, X.svdvals la = .ok L ∧ L.length = X.shape.length ∧
      (∀ mu < X.shape.length, IsSingularValues X.toNumpy (max mu 1) (L.getD mu [])) ∧
      ∀ mu, 0 < mu → mu < X.shape.length → (L.getD mu []).length = (leftRanks 1 X.shape X.rank).getD (mu - 1) 0 := by
  obtain ⟨O, o1, o2, o3, o4, o5, o6, o7⟩ := C18 hq hX hp
  obtain ⟨C, Cs, r, n, hrev, hC, hCs, hdl⟩ := tt_reverse o2
  obtain ⟨hb, hiff⟩ := fits_iff hX hp o2 o3 o6.1 o7 hrev
  have hOl : O.cores.length = Cs.length + 1 := by rw [← List.length_reverse, hrev]; rfl
  have hd : X.shape.length = Cs.length + 1 := by
    rw [← o3, ← hOl]; simp [TT.shape]
  have hcores : O.cores = (C :: Cs).reverse := by rw [← hrev, List.reverse_reverse]
  have hshape : (coreShape (C :: Cs)).reverse = O.shape := by
    show _ = coreShape O.cores
    rw [hcores]; exact List.map_reverse.symm
  obtain ⟨L, l1, l2, l3, l4⟩ := svdvalsLoop_spec hs Cs C r n 1 hC hCs
    (fun D hD => o5 D (by rw [hdl]; exact List.mem_reverse.2 hD)) (hiff.1 hfit)
  have hget : ∀ mu < X.shape.length, L.reverse.getD mu [] = L.getD (Cs.length - mu) [] := by
    intro mu hmu
    rw [List.getD_eq_getElem?_getD, List.getElem?_reverse (by omega), ← List.getD_eq_getElem?_getD, l2]
    rw [show Cs.length + 1 - 1 - mu = Cs.length - mu by omega]
  refine ⟨L.reverse, ?_, by rw [List.length_reverse, l2, hd], ?_, ?_⟩
  · unfold TT.svdvals
    rw [o1]
    dsimp only
    rw [hrev, l1]; rfl
  · intro mu hmu
    rw [hget mu hmu]
    have := l4 [] (fun _ _ => 1) X.toNumpy.get (by
      intro a ha b hb
      have ha : a = 0 := by omega
      have hb : b = 0 := by omega
      subst ha hb
      rw [← sumIdx_eq_sum]
      simp) (by
      intro p q _ hq'
      match q, hq' with
      | [], _ =>
        rw [sum_range_one, mul_one, List.append_nil, ← o4, TT.toNumpy_get o2, ttEntry, hcores]; rfl)
      (Cs.length - mu) (by omega)
    rw [List.append_nil, hshape, o3, show Cs.length - (Cs.length - mu) = mu by omega] at this
    refine SVsF.spec ?_
    rw [TT.toNumpy_shape hX]
    exact this
  · intro mu h0 hmu
    rw [hget mu hmu, l3 _ (by omega), hb _ (by omega)]
    congr 1; omega

/-- **C63, failure.** If some bond is, after orthogonalisation, larger than the modes to its right allow, `svdvals` raises
`ValueError`: the product `U @ np.diag(S)` has operands of different sizes. -/
theorem C63_reject {la : LinAlg} (hq : la.QROk) (hs : la.SVDOk) {X : TT ℝ} (hX : X.Valid) (hp : X.Pos)
    (hfit : ¬ FitsRight X.shape X.rank) : X.svdvals la = .error .valueError := by
  obtain ⟨O, o1, o2, o3, o4, o5, o6, o7⟩ := C18 hq hX hp
  obtain ⟨C, Cs, r, n, hrev, hC, hCs, hdl⟩ := tt_reverse o2
  obtain ⟨-, hiff⟩ := fits_iff hX hp o2 o3 o6.1 o7 hrev
  have := svdvalsLoop_fail hs Cs C r n 1 hC hCs (by
    by_contra hcon
    push Not at hcon
    exact hfit (hiff.2 hcon))
  unfold TT.svdvals
  rw [o1]
  dsimp only
  rw [hrev, this]; rfl

theorem leftRanks_le : ∀ (r : ℕ) (ns ks : List ℕ) (k : ℕ), (leftRanks r ns ks).getD k 0 ≤ ks.getD k 0
  | _, [], _, _ => by simp [leftRanks]
  | _, _ :: _, [], _ => by simp [leftRanks]
  | _, _ :: _, _ :: _, 0 => min_le_right _ _
  | r, n :: ns, m :: ks, k + 1 => leftRanks_le (min (r * n) m) ns ks k

/-- **C63, trimmed ranks.** Trains whose ranks are consistent, in particular those with ranks trimmed by the
library (`C03_consistent`), meet the condition. -/
theorem C63_consistent {shape ranks : List ℕ} (h : ConsistentRanks shape ranks) : FitsRight shape ranks := by
  intro k hk
  refine (leftRanks_le 1 shape ranks k).trans ?_
  have := (h.2 (k + 1) (by have := h.1; omega)).2
  rw [bonds, List.getD_cons_succ, List.getD_cons_succ, List.getD_append _ _ _ _ hk] at this
  exact this

/-- **C63, uniqueness.** Singular values of an unfolding are unique up to zeros at the end: `svdvals` of two trains that
denote the same tensor agree in this sense, and the entry of mode 0 repeats the entry of mode 1. -/
theorem C63_unique {A : ND ℝ} {k : ℕ} {S T : List ℝ} (hS : IsSingularValues A k S) (hT : IsSingularValues A k T) :
    ∀ t, S.getD t 0 = T.getD t 0 := fun t => (SVsF.of_spec hS).unique (SVsF.of_spec hT) t

/-- **C63, the entry of mode 0.** -/
theorem C63_first {la : LinAlg} (hq : la.QROk) (hs : la.SVDOk) {X : TT ℝ} (hX : X.Valid) (hp : X.Pos)
    (hfit : FitsRight X.shape X.rank) (hd : 2 ≤ X.shape.length) :
    ∃ L, X.svdvals la = .ok L ∧ ∀ t, (L.getD 0 []).getD t 0 = (L.getD 1 []).getD t 0 := by
  obtain ⟨L, l1, -, l3, -⟩ := C63 hq hs hX hp hfit
  exact ⟨L, l1, C63_unique (l3 0 (by omega)) (l3 1 (by omega))⟩

theorem svd_norm {A : ND ℝ} {k : ℕ} {S : List ℝ} (hS : IsSingularValues A k S) :
    (S.map fun s => s ^ 2).sum = normSq A := by
  obtain ⟨h0, hm, u, v, hu, hv, hf⟩ := SVsF.of_spec hS
  have := sv_sum_sq hu hv (S := fun t => S.getD t 0) (M := fun p q => A.get (p ++ q))
    (fun p hp q hq => hf p q (mem_idxSet.1 hp) (mem_idxSet.1 hq))
  have e : ∑ t ∈ range S.length, S.getD t 0 ^ 2 = (S.map fun s => s ^ 2).sum := by
    have := sumSq_drop S 0
    rw [List.drop_zero] at this
    rw [← range_eq_Ico] at this
    exact this.symm
  rw [← e, ← this]
  unfold normSq
  conv_rhs => rw [← List.take_append_drop k A.shape]
  rw [sumIdx_append, sumIdx_eq_sum]
  exact sum_congr rfl fun p _ => (sumIdx_eq_sum _).symm

/-- **C63, norm.** The squares of the singular values of every mode sum to the squared norm of the tensor. -/
theorem C63_norm {la : LinAlg} (hq : la.QROk) (hs : la.SVDOk) {X : TT ℝ} (hX : X.Valid) (hp : X.Pos)
    (hfit : FitsRight X.shape X.rank) :
    ∃ L, X.svdvals la = .ok L ∧ ∀ mu < X.shape.length, ((L.getD mu []).map fun s => s ^ 2).sum = normSq X.toNumpy := by
  obtain ⟨L, l1, -, l3, -⟩ := C63 hq hs hX hp hfit
  exact ⟨L, l1, fun mu hmu => svd_norm (l3 mu hmu)⟩

/-- **C63, distance.** What the singular values of mode `mu` say about approximation: no tensor train whose rank between the
modes `mu` and `mu + 1` is `r` is closer to the tensor than the root of the sum of the squares of the singular values
from the `r`-th on. -/
theorem C63_distance {la : LinAlg} (hq : la.QROk) (hs : la.SVDOk) {X : TT ℝ} (hX : X.Valid) (hp : X.Pos)
    (hfit : FitsRight X.shape X.rank) :
    ∃ L, X.svdvals la = .ok L ∧ ∀ mu < X.rank.length, ∀ Z : TT ℝ, Z.Valid → Z.shape = X.shape →
      (((L.getD (mu + 1) []).drop (Z.rank.getD mu 0)).map fun s => s ^ 2).sum ≤ distSq X.toNumpy Z.toNumpy := by
  obtain ⟨L, l1, -, l3, -⟩ := C63 hq hs hX hp hfit
  refine ⟨L, l1, fun mu hmu Z hZ hZs => ?_⟩
  have hrl := rank_length hX
  have hsv := SVsF.of_spec (l3 (mu + 1) (by omega))
  rw [show max (mu + 1) 1 = mu + 1 by omega] at hsv
  obtain ⟨r, n, hc, h0, h1⟩ := exists_cores hZ.2
  have hZl : Z.cores.length = X.shape.length := by rw [← hZs]; simp [TT.shape]
  have hrk : Z.rank.getD mu 0 = r (mu + 1) := by
    unfold TT.rank
    rw [getD_map_lt _ _ mu (by simp; omega) (ND.zeros []), List.getD_eq_getElem?_getD, List.getElem?_tail,
      ← List.getD_eq_getElem?_getD]
    exact (dim_of_shape3 (hc (mu + 1) (by omega))).1
  have hch := hc.chain (mu + 1) (by omega)
  rw [h0] at hch
  have := sumSq_drop (L.getD (mu + 1) []) (Z.rank.getD mu 0)
  unfold sumSq at this
  rw [this]
  refine (hsv.lower (r := Z.rank.getD mu 0) (fun p x => ttVal (Z.cores.take (mu + 1)) p 0 x)
    fun q x => ttVal (Z.cores.drop (mu + 1)) q x 0).trans (le_of_eq ?_)
  unfold distSq
  conv_rhs => rw [← List.take_append_drop (mu + 1) X.toNumpy.shape]
  rw [sumIdx_append, sumIdx_eq_sum]
  refine sum_congr rfl fun p hp' => ?_
  rw [sumIdx_eq_sum]
  refine sum_congr rfl fun q _ => ?_
  have hpl : p.length = (Z.cores.take (mu + 1)).length := by
    rw [(mem_idxSet.1 hp').length, TT.toNumpy_shape hX, List.length_take, List.length_take, hZl]
  have e : Z.toNumpy.get (p ++ q) = ∑ x ∈ range (Z.rank.getD mu 0),
      ttVal (Z.cores.take (mu + 1)) p 0 x * ttVal (Z.cores.drop (mu + 1)) q x 0 := by
    rw [TT.toNumpy_get hZ, ttEntry]
    conv_lhs => rw [← List.take_append_drop (mu + 1) Z.cores]
    rw [ttVal_append hch _ p q hpl 0 0 one_pos, hrk]
  rw [e]

/-- **C63, rounding.** What the singular values say about `round`: with maximal ranks `r_mu` (as trimmed by the library)
and no `eps`, the squared error of `round` is at most the sum, over the bonds, of the squares of the singular values from the
`r_mu`-th on. (With `eps`, the term of `C20_quasi_optimal` is added.) -/
theorem C63_round {la : LinAlg} (hq : la.QROk) (hs : la.SVDOk) {X : TT ℝ} (hX : X.Valid) (hp : X.Pos)
    (hfit : FitsRight X.shape X.rank) (eps : Option ℝ) (he : 0 ≤ eps.getD 0) (a : RankArg) (orth : Bool)
    (hmr : (askedRanks X.shape a).length + 1 = X.shape.length)
    (ho : orth = true → ∀ C ∈ X.cores.dropLast, C.LeftOrthogonal) :
    ∃ L Y, X.svdvals la = .ok L ∧ X.round la eps (some a) orth = .ok Y ∧
      distSq X.toNumpy Y.toNumpy ≤ ∑ mu ∈ range X.rank.length,
          (((L.getD (mu + 1) []).drop ((trimRanks X.shape (askedRanks X.shape a)).getD mu 0)).map fun s => s ^ 2).sum
        + ((trimRanks X.shape (askedRanks X.shape a)).sum : ℝ) * (eps.getD 0 ^ 2 * normSq X.toNumpy) := by
  obtain ⟨L, l1, -, l3, -⟩ := C63 hq hs hX hp hfit
  obtain ⟨O, o1, o2, o3, o4, o5, o6, o7⟩ := round_input hq hX hp orth
  obtain ⟨rs, r1, r2, r3, -⟩ := round_ranks o2 o4 (some a) (fun b hb => by injection hb with h; rw [← h]; exact hmr)
  obtain rfl := r3 a rfl
  have htl := trimRanks_length X.shape _ hmr
  obtain ⟨N, disc, n1, n2, n3, n4, n5, n6, n7, n8, n9⟩ :=
    roundLoop_tt hs o2 o3 (eps.getD 0) (trimRanks X.shape (askedRanks X.shape a))
  have hrl := rank_length hX
  refine ⟨L, ⟨N.reverse⟩, l1, ?_, ?_⟩
  · unfold TT.round TT.roundTrace
    rw [o1]
    dsimp only
    rw [r1]
    dsimp only
    rw [n1]; rfl
  · obtain ⟨e1, -, e3⟩ := n9 (o7 ho)
    -- the decompositions behind the singular values
    have dec : ∀ mu < X.rank.length, ∃ u v : ℕ → List ℕ → ℝ,
        Orthn (idxSet (X.toNumpy.shape.take (mu + 1))) (L.getD (mu + 1) []).length u ∧
        Orthn (idxSet (X.toNumpy.shape.drop (mu + 1))) (L.getD (mu + 1) []).length v ∧
        ∀ p q, InR (X.toNumpy.shape.take (mu + 1)) p → InR (X.toNumpy.shape.drop (mu + 1)) q → X.toNumpy.get (p ++ q)
          = ∑ t ∈ range (L.getD (mu + 1) []).length, u t p * (L.getD (mu + 1) []).getD t 0 * v t q := by
      intro mu hmu
      have hsv := SVsF.of_spec (l3 (mu + 1) (by omega))
      rw [show max (mu + 1) 1 = mu + 1 by omega] at hsv
      exact hsv.2.2
    choose! u v hu hv hf using dec
    have := e3 he (by rw [htl, o6.1]; omega)
      (fun mu i => ∑ t ∈ range ((trimRanks X.shape (askedRanks X.shape a)).getD mu 0),
        (if t < (L.getD (mu + 1) []).length then u mu t (i.take (mu + 1)) * (L.getD (mu + 1) []).getD t 0 else 0)
          * v mu t (i.drop (mu + 1))) (by
        intro mu hmu
        refine ⟨fun p t => if t < (L.getD (mu + 1) []).length then u mu t p * (L.getD (mu + 1) []).getD t 0 else 0,
          fun q t => v mu t q, fun p q hpl _ => ?_⟩
        beta_reduce
        rw [← hpl, List.take_left, List.drop_left])
    rw [o5, o4, o6.1] at this
    rw [o5] at e1
    rw [e1]
    refine this.trans (le_of_eq ?_)
    congr 1
    refine sum_congr rfl fun mu hmu => ?_
    have hmu : mu < X.rank.length := by simpa using hmu
    have h2 := sumSq_drop (L.getD (mu + 1) []) ((trimRanks X.shape (askedRanks X.shape a)).getD mu 0)
    unfold sumSq at h2
    rw [h2, ← sv_trunc (hu mu hmu) (hv mu hmu) (S := fun t => (L.getD (mu + 1) []).getD t 0)
      (M := fun p q => X.toNumpy.get (p ++ q))
      (fun p hp q hq => hf mu hmu p q (mem_idxSet.1 hp) (mem_idxSet.1 hq))]
    rw [TT.toNumpy_shape hX]
    generalize (trimRanks X.shape (askedRanks X.shape a)).getD mu 0 = w
    conv_lhs => rw [← List.take_append_drop (mu + 1) X.shape]
    rw [sumIdx_append, sumIdx_eq_sum]
    refine sum_congr rfl fun p hp' => ?_
    rw [sumIdx_eq_sum]
    refine sum_congr rfl fun q _ => ?_
    have hpl : p.length = mu + 1 := by
      rw [(mem_idxSet.1 hp').length, List.length_take]; omega
    rw [← hpl, List.take_left, List.drop_left]

example : laChoice.QROk ∧ laChoice.SVDOk ∧ x9.Valid ∧ x9.Pos ∧ FitsRight x9.shape x9.rank := by
  refine ⟨laChoice_qr, laChoice_svd, x9_valid, x9_pos, ?_⟩
  have e1 : x9.shape = [2, 3, 2] := rfl
  have e2 : x9.rank = [2, 2] := rfl
  rw [e1, e2]
  unfold FitsRight
  decide

/-- a train of shape `(4, 2)` and rank 4: the bond is larger than the second mode -/
def w9 : TT ℝ := ⟨[ND.ofFn [1, 4, 4] fun i => i.getD 1 0 + i.getD 2 0, ND.ofFn [4, 2, 1] fun i => i.getD 0 0 + 1]⟩

example : w9.Valid ∧ w9.Pos ∧ ¬ FitsRight w9.shape w9.rank := by
  refine ⟨⟨by simp [w9], 4, 4, rfl, 2, 1, rfl, rfl⟩, by simp [TT.Pos, w9, TT.shape, TT.rank, ND.dim], ?_⟩
  intro h
  have := h 0 (by simp [w9, TT.rank])
  have e1 : w9.shape = [4, 2] := rfl
  have e2 : w9.rank = [4] := rfl
  rw [e1, e2] at this
  revert this
  decide

end TTS.Props
