import Verif.Proofs.ApproxSvd
import Verif.Props.TTSvd

/-!
# C92: TT-SVD with an inexact singular value decomposition
-/

namespace TTS.Props

open Finset TTS.Spec

/-- Every exact routine is an inexact one. -/
theorem approx_of_exact {la : LinAlg} (hs : la.SVDThinOk) {ε : ℝ} (hε : 0 ≤ ε) : la.SVDThinApprox ε := by
  intro M m n hM
  have h := hs M m n hM
  have z : ∀ B : ND ℝ, frobD B B = 0 := by
    intro B
    unfold frobD distSq
    rw [sumIdx_eq_zero fun _ _ => by simp, Real.sqrt_zero]
  refine ⟨h.shapeU, h.shapeV, M, _, _, hM, h, ?_, ?_, ?_⟩
  · rw [z]; exact mul_nonneg hε (Real.sqrt_nonneg _)
  · rw [z]; exact hε
  · rw [z]; exact hε

/-- **C92.** If `np.linalg.svd` is backward stable with relative error `ε`, then for every nonempty array with `d ≥ 2` modes
and every acceptable `rank`, `tt_svd` returns a tensor train of the same shape and of the ranks it has in exact arithmetic,
whose cores but the last are left-orthogonal up to `2ε + ε²`, whose norm is at most `(1+ε)^(3(d-1))` times that of the array,
and whose distance from the array is at most `√(d-1)` times that of any tensor train with the requested ranks plus
`(d-1)(4+2√(d-1)) ε (1+ε)^(3(d-1))` times the norm. -/
theorem C92 {la : LinAlg} {ε : ℝ} (hε : 0 ≤ ε) (hs : la.SVDThinApprox ε) (A : ND ℝ) (hd : 2 ≤ A.shape.length)
    (hpos : ∀ n ∈ A.shape, 0 < n) (rank : Option RankArg) (hl : (svdRanks A.shape rank).length + 1 = A.shape.length) :
    ∃ Y, ttSvd la A rank = .ok Y ∧ Y.Valid ∧ Y.shape = A.shape ∧
      (∀ C ∈ Y.cores.dropLast, C.NearLeftOrthogonal (2 * ε + ε ^ 2)) ∧
      (∀ k < A.shape.length - 1, 1 ≤ Y.rank.getD k 0 ∧
        Y.rank.getD k 0 ≤ max 1 ((trimRanks A.shape (svdRanks A.shape rank)).getD k 0)) ∧
      frobN Y.toNumpy ≤ (1 + ε) ^ (3 * (A.shape.length - 1)) * frobN A ∧
      ∀ Z : TT ℝ, Z.Valid → Z.shape = A.shape → RanksLe Z.rank (svdRanks A.shape rank) →
        frobD A Y.toNumpy ≤ √ ((A.shape.length - 1 : ℕ) : ℝ) * frobD A Z.toNumpy
          + (A.shape.length - 1 : ℕ) * (4 + 2 * √ ((A.shape.length - 1 : ℕ) : ℝ)) * ε
            * (1 + ε) ^ (3 * (A.shape.length - 1)) * frobN A := by
  have htl := trimRanks_length A.shape _ hl
  have hr : processTTRank (rank.getD (.seq (List.replicate (A.shape.length - 1) A.shape.prod))) A.shape true
      = .ok (trimRanks A.shape (svdRanks A.shape rank)) := by
    rw [process_asked]
    have : askedRanks A.shape (rank.getD (.seq (List.replicate (A.shape.length - 1) A.shape.prod)))
        = svdRanks A.shape rank := by cases rank <;> rfl
    rw [this, if_pos hl]
  obtain ⟨cs, disc, c1, c2, c3, c4, c6, c7, c8⟩ := ttSvdLoop_approx hε hs A.shape (A.reshape (1 :: A.shape)) 1
    (trimRanks A.shape (svdRanks A.shape rank)) rfl one_pos hpos (by omega)
  have hne : cs ≠ [] := by intro h; rw [h] at c3; rw [← c3] at hd; simp [coreShape] at hd
  have hv : (TT.mk cs).Valid := ⟨hne, c2⟩
  have hrk := bonds_rank hv
  have hrl := rank_length hv
  have hsh : (TT.mk cs).shape = A.shape := c3
  rw [hsh] at hrl
  have hN : (trimRanks A.shape (svdRanks A.shape rank)).length = A.shape.length - 1 := by omega
  rw [hN] at c7 c8
  have ea : dL 1 A.shape (entL (A.reshape (1 :: A.shape))) zL = frobN A := by
    rw [dL_ent_zero rfl]; unfold frobN; rw [normSq_reshape' (by simp)]
  have ey : dL 1 A.shape (fun x p => ttVal cs p x 0) zL = frobN (TT.mk cs).toNumpy := by
    unfold dL distL frobN normSq
    rw [sum_range_one, TT.toNumpy_shape hv, hsh]
    congr 1
    exact sumIdx_congr fun p _ => by rw [TT.toNumpy_get hv]; simp only [zL, sub_zero]; rfl
  have ed : ∀ F : List ℕ → ℝ, dL 1 A.shape (entL (A.reshape (1 :: A.shape))) (fun _ p => F p)
      = √ (sumIdx A.shape fun p => (A.get p - F p) ^ 2) := by
    intro F
    unfold dL
    rw [distL_one A rfl]
  refine ⟨⟨cs⟩, ?_, hv, hsh, c4, ?_, by rw [← ey, ← ea]; exact c7, ?_⟩
  · unfold ttSvd
    rw [ttSvdTrace_loop la A hd hpos rank _ hr (by omega), c1]; rfl
  · intro k hk
    have e : (TT.mk cs).rank.getD k 0 = bnd cs 1 (k + 1) := by
      have : bnd cs 1 (k + 1) = (bonds (TT.mk cs).rank).getD (k + 1) 0 := by rw [hrk]; rfl
      rw [this]
      unfold bonds
      rw [List.getD_cons_succ, List.getD_append _ _ _ _ (by omega)]
    rw [e]
    exact c6 k (by omega)
  · intro Z hZ hZs hZr
    obtain ⟨Z', z1, z2, z3, z4⟩ := C04 Z hZ _ hZr
    have h := c8 (fun _ p => Z'.toNumpy.get p) (by
      intro mu hmu
      obtain ⟨f, g, hfg⟩ := splits_tt z1 (mu := mu) (by rw [z3, hZs, htl]; omega)
      rw [z3, z2, hZs] at hfg
      refine ⟨fun _ p a => f p a, fun q a => g q 0 a, fun x _ p q hp hpq => ?_⟩
      have := hfg p q 0 hp hpq one_pos
      simpa using this)
    rw [ea, ed, z4] at h
    have e0 : dL 1 A.shape (entL (A.reshape (1 :: A.shape))) (fun x p => ttVal cs p x 0)
        = frobD A (TT.mk cs).toNumpy := by
      rw [dL_congr (G' := fun _ p => ttVal cs p 0 0) (fun _ _ _ _ => rfl) (fun x hx p _ => by
        rw [show x = 0 by omega]), ed]
      unfold frobD distSq
      congr 1
      exact sumIdx_congr fun p _ => by rw [TT.toNumpy_get hv]; rfl
    rw [e0] at h
    exact h

/-- **C92, representable arrays.** The rounding error is all there is if the array has the requested ranks, in particular if no
rank is given. -/
theorem C92_exact {la : LinAlg} {ε : ℝ} (hε : 0 ≤ ε) (hs : la.SVDThinApprox ε) (A : ND ℝ) (hd : 2 ≤ A.shape.length)
    (hpos : ∀ n ∈ A.shape, 0 < n) (rank : Option RankArg) (hl : (svdRanks A.shape rank).length + 1 = A.shape.length)
    (hA : rank = none ∨ ∃ Z : TT ℝ, Z.Valid ∧ Z.shape = A.shape ∧ RanksLe Z.rank (svdRanks A.shape rank) ∧ Z.toNumpy = A) :
    ∃ Y, ttSvd la A rank = .ok Y ∧ Y.shape = A.shape ∧
      frobD A Y.toNumpy ≤ (A.shape.length - 1 : ℕ) * (4 + 2 * √ ((A.shape.length - 1 : ℕ) : ℝ)) * ε
        * (1 + ε) ^ (3 * (A.shape.length - 1)) * frobN A := by
  have hZ : ∃ Z : TT ℝ, Z.Valid ∧ Z.shape = A.shape ∧ RanksLe Z.rank (svdRanks A.shape rank) ∧ Z.toNumpy = A := by
    rcases hA with rfl | hA
    · obtain ⟨Z, z1, z2⟩ := C49_none laChoice_svdThin A hd hpos
      obtain ⟨Z', _, _, z3, z4, z5, _, z6, _⟩ := C49 laChoice_svdThin A hd hpos none hl
      rw [z1] at z3
      obtain rfl : Z = Z' := by injection z3
      have zl := rank_length z4
      rw [z5] at zl
      refine ⟨Z, z4, z5, ⟨by omega, fun i hi => ?_⟩, z2⟩
      have h1 := (z6 i (by omega)).2
      have h2 := (C02 A.shape _ hl i (by omega)).1
      have h3 : (svdRanks A.shape none).getD i 0 = A.shape.prod := by
        unfold svdRanks
        rw [List.getD_eq_getElem _ _ (by simp; omega)]; simp
      have h4 : 0 < A.shape.prod := prod_pos_of hpos
      have h5 := (C02 A.shape _ hl i (by omega)).2.1
      omega
    · exact hA
  obtain ⟨Z, z1, z2, z3, z4⟩ := hZ
  obtain ⟨Y, y1, -, y3, -, -, -, y7⟩ := C92 hε hs A hd hpos rank hl
  refine ⟨Y, y1, y3, ?_⟩
  have h := y7 Z z1 z2 z3
  have h0 : frobD A Z.toNumpy = 0 := by
    rw [z4]
    unfold frobD distSq
    rw [sumIdx_eq_zero fun _ _ => by simp, Real.sqrt_zero]
  rw [h0, mul_zero, zero_add] at h
  exact h

/-! ### An inexact routine -/

/-- an exact decomposition whose singular values are too small by the factor `1 - ε` and whose first left singular vector is
off by `ε` in one entry -/
noncomputable def badSvd (ε : ℝ) : LinAlg :=
  { laChoice with svdThin := fun M =>
      let USV := laChoice.svdThin M
      (ND.ofFn USV.1.shape fun i => USV.1.get i + if i = [0, 0] then ε else 0, USV.2.1.map ((1 - ε) * ·), USV.2.2) }

theorem badSvd_approx {ε : ℝ} (h0 : 0 ≤ ε) (h1 : ε ≤ 1) : (badSvd ε).SVDThinApprox ε := by
  intro M m n hM
  have h := laChoice_svdThin M m n hM
  generalize hUSV : laChoice.svdThin M = USV at h
  have hb : (badSvd ε).svdThin M = (ND.ofFn USV.1.shape fun i => USV.1.get i + if i = [0, 0] then ε else 0,
      USV.2.1.map ((1 - ε) * ·), USV.2.2) := by rw [← hUSV]; rfl
  rw [hb]
  obtain ⟨U, S, V⟩ := USV
  dsimp only at h ⊢
  have hg : ∀ t, (S.map ((1 - ε) * ·)).getD t 0 = (1 - ε) * S.getD t 0 := by
    intro t
    rcases lt_or_ge t S.length with ht | ht
    · rw [List.getD_eq_getElem _ _ (by simpa using ht), List.getD_eq_getElem _ _ ht, List.getElem_map]
    · rw [List.getD_eq_default _ _ (by simpa using ht), List.getD_eq_default _ _ ht, mul_zero]
  refine ⟨h.shapeU, h.shapeV, ND.ofFn [m, n] fun i => (1 - ε) * M.get i, U, V, rfl, ?_, ?_, ?_, ?_⟩
  · refine ⟨h.shapeU, h.shapeV, by rw [List.length_map, h.length], fun i hi j hj => ?_, h.orthU, h.orthV, fun t => ?_,
      fun s t hst => ?_⟩
    · rw [ND.ofFn_get (s := [m, n]) (i := [i, j]) ⟨hi, hj, trivial⟩, ← h.mul i hi j hj, mul_sum]
      exact sum_congr rfl fun t _ => by rw [hg]; ring
    · rw [hg]; exact mul_nonneg (by linarith) (h.nonneg t)
    · rw [hg, hg]; exact mul_le_mul_of_nonneg_left (h.antitone s t hst) (by linarith)
  · have e : distSq M (ND.ofFn [m, n] fun i => (1 - ε) * M.get i) = ε ^ 2 * normSq M := by
      unfold distSq normSq
      rw [sumIdx_eq_sum, sumIdx_eq_sum, mul_sum]
      refine sum_congr rfl fun i hi => ?_
      rw [ND.ofFn_get (by rw [← hM]; exact mem_idxSet.1 hi)]
      ring
    unfold frobD frobN
    rw [e, Real.sqrt_mul (sq_nonneg _), Real.sqrt_sq h0]
  · refine (Real.sqrt_le_left h0).2 ?_
    have e : distSq (ND.ofFn U.shape fun i => U.get i + if i = [0, 0] then ε else 0) U
        = sumIdx U.shape fun i => if i = [0, 0] then ε ^ 2 else 0 := by
      unfold distSq
      show sumIdx U.shape _ = _
      refine sumIdx_congr fun i hi => ?_
      rw [ND.ofFn_get hi]
      split_ifs <;> ring
    rw [e]
    by_cases hz : InR U.shape [0, 0]
    · rw [sumIdx_ite_eq hz]
    · rw [sumIdx_eq_zero fun i hi => if_neg fun (h : i = [0, 0]) => hz (by rw [← h]; exact hi)]
      exact sq_nonneg _
  · unfold frobD distSq
    rw [sumIdx_eq_zero fun _ _ => by simp, Real.sqrt_zero]
    exact h0

/-- a `2 × 3 × 2` array and a routine with relative error `10⁻¹⁵`, which is not exact -/
example : (badSvd (1 / 10 ^ 15)).SVDThinApprox (1 / 10 ^ 15) ∧ 2 ≤ y9.shape.length ∧ (∀ n ∈ y9.shape, 0 < n) ∧
    (svdRanks y9.shape (some (.int 2))).length + 1 = y9.shape.length ∧ z9.Valid ∧ z9.shape = y9.shape ∧
    RanksLe z9.rank (svdRanks y9.shape (some (.int 2))) :=
  ⟨badSvd_approx (by norm_num) (by norm_num), by decide, by decide, rfl, ⟨by simp [z9], 2, 1, rfl, 3, 1, rfl, 2, 1, rfl, rfl⟩,
    rfl, rfl, fun i hi => by
      have : i < 2 := hi
      interval_cases i <;> simp [z9, TT.rank, ND.dim, svdRanks, askedRanks, y9]⟩

end TTS.Props
