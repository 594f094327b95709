import Verif.Proofs.Recover
import Verif.Spec.Contract

/-! From ranks to spans. -/

namespace TTS

open Finset

variable {K : Type*} [Field K]

theorem exists_right_factor {m n k : Type*} [Fintype m] [Fintype n] [Fintype k] [DecidableEq n]
    (T : Matrix m n K) (Y : Matrix n k K) (h : (T * Y).rank = T.rank) : ∃ V : Matrix k n K, T * Y * V = T := by
  classical
  have hle : LinearMap.range (T * Y).mulVecLin ≤ LinearMap.range T.mulVecLin := by
    rw [Matrix.mulVecLin_mul]
    exact LinearMap.range_comp_le_range _ _
  have heq := Submodule.eq_of_le_of_finrank_eq hle h
  have : ∀ j : n, ∃ v : k → K, (T * Y).mulVec v = T.mulVec (Pi.single j 1) := by
    intro j
    have : T.mulVecLin (Pi.single j 1) ∈ LinearMap.range (T * Y).mulVecLin := by
      rw [heq]; exact ⟨_, rfl⟩
    obtain ⟨v, hv⟩ := this
    exact ⟨v, hv⟩
  choose v hv using this
  refine ⟨Matrix.of fun b j => v j b, ?_⟩
  ext i j
  have := congrFun (hv j) i
  rw [Matrix.mulVec_single_one] at this
  rw [Matrix.mul_apply]
  exact this

theorem exists_left_factor {m n k : Type*} [Fintype m] [Fintype n] [Fintype k] [DecidableEq m]
    (T : Matrix m n K) (X : Matrix k m K) (h : (X * T).rank = T.rank) : ∃ W : Matrix m k K, W * (X * T) = T := by
  obtain ⟨V, hV⟩ := exists_right_factor T.transpose X.transpose
    (by rw [← Matrix.transpose_mul, Matrix.rank_transpose, Matrix.rank_transpose, h])
  refine ⟨V.transpose, ?_⟩
  have := congrArg Matrix.transpose hV
  rw [Matrix.transpose_mul, Matrix.transpose_mul, Matrix.transpose_transpose, Matrix.transpose_transpose] at this
  exact this

theorem sumIdx_fin (s : List ℕ) (g : List ℕ → K) : sumIdx s g = ∑ i : Fin s.prod, g (unravel s i) := by
  rw [← sum_unravel, Finset.sum_range]

/-- If contracting with `R` keeps the rank of the unfolding, its columns are spanned. -/
theorem colSpan_of_rank (A : ND K) (R : Mats K) (k n : ℕ)
    (h : (A.unfolding k * Matrix.of fun (j : Fin (A.shape.drop k).prod) (b : Fin n) =>
      R k (unravel (A.shape.drop k) j) b).rank = (A.unfolding k).rank) :
    ColSpan A.shape A.get R k n := by
  classical
  obtain ⟨V, hV⟩ := exists_right_factor _ _ h
  refine ⟨fun b q => if hq : b < n ∧ ravel (A.shape.drop k) q < (A.shape.drop k).prod
    then V ⟨b, hq.1⟩ ⟨_, hq.2⟩ else 0, fun p q hp hq => ?_⟩
  have hp' := ravel_lt hp
  have hq' := ravel_lt hq
  have := congrFun (congrFun hV ⟨ravel (A.shape.take k) p, hp'⟩) ⟨ravel (A.shape.drop k) q, hq'⟩
  have e : A.unfolding k ⟨ravel (A.shape.take k) p, hp'⟩ ⟨ravel (A.shape.drop k) q, hq'⟩ = A.get (p ++ q) := by
    show A.get (unravel _ _ ++ unravel _ _) = _
    rw [unravel_ravel hp, unravel_ravel hq]
  rw [← e, ← this, Matrix.mul_apply, Finset.sum_range]
  refine sum_congr rfl fun b _ => ?_
  beta_reduce
  rw [dif_pos ⟨b.2, hq'⟩]
  congr 1
  rw [Matrix.mul_apply, pcR, sumIdx_fin]
  refine sum_congr rfl fun j _ => ?_
  congr 1
  show A.get (unravel _ _ ++ unravel _ _) = _
  rw [unravel_ravel hp]

theorem rowSpan_of_rank (A : ND K) (L : Mats K) (k n : ℕ)
    (h : ((Matrix.of fun (a : Fin n) (i : Fin (A.shape.take k).prod) =>
      L k (unravel (A.shape.take k) i) a) * A.unfolding k).rank = (A.unfolding k).rank) :
    RowSpan A.shape A.get L k n := by
  classical
  obtain ⟨W, hW⟩ := exists_left_factor _ _ h
  refine ⟨fun p a => if hq : ravel (A.shape.take k) p < (A.shape.take k).prod ∧ a < n
    then W ⟨_, hq.1⟩ ⟨a, hq.2⟩ else 0, fun p q hp hq => ?_⟩
  have hp' := ravel_lt hp
  have hq' := ravel_lt hq
  have := congrFun (congrFun hW ⟨ravel (A.shape.take k) p, hp'⟩) ⟨ravel (A.shape.drop k) q, hq'⟩
  have e : A.unfolding k ⟨ravel (A.shape.take k) p, hp'⟩ ⟨ravel (A.shape.drop k) q, hq'⟩ = A.get (p ++ q) := by
    show A.get (unravel _ _ ++ unravel _ _) = _
    rw [unravel_ravel hp, unravel_ravel hq]
  rw [← e, ← this, Matrix.mul_apply, Finset.sum_range]
  refine sum_congr rfl fun a _ => ?_
  beta_reduce
  rw [dif_pos ⟨hp', a.2⟩]
  congr 1
  rw [Matrix.mul_apply, pcL, sumIdx_fin]
  refine sum_congr rfl fun j _ => ?_
  congr 1
  show A.get (unravel _ _ ++ unravel _ _) = _
  rw [unravel_ravel hq]

/-- If `Omega[mu]` has the rank of the unfolding, rows and columns are spanned. -/
theorem spans_of_rank (A : ND K) (L R : Mats K) (mu l r : ℕ)
    (h : (Matrix.of fun (a : Fin l) (b : Fin r) => omegaSpec A.shape A.get L R mu a b).rank
      = (A.unfolding (mu + 1)).rank) :
    RowSpan A.shape A.get L (mu + 1) l ∧ ColSpan A.shape A.get R (mu + 1) r := by
  set X := Matrix.of fun (a : Fin l) (i : Fin (A.shape.take (mu + 1)).prod) =>
      L (mu + 1) (unravel (A.shape.take (mu + 1)) i) a with hX
  set Y := Matrix.of fun (j : Fin (A.shape.drop (mu + 1)).prod) (b : Fin r) =>
      R (mu + 1) (unravel (A.shape.drop (mu + 1)) j) b with hY
  have e : (Matrix.of fun (a : Fin l) (b : Fin r) => omegaSpec A.shape A.get L R mu a b)
      = X * A.unfolding (mu + 1) * Y := by
    ext a b
    rw [Matrix.mul_apply]
    show omegaSpec _ _ _ _ _ _ _ = _
    rw [omegaSpec_left, sumIdx_fin]
    refine sum_congr rfl fun j _ => ?_
    congr 1
    rw [Matrix.mul_apply, pcL, sumIdx_fin]
    rfl
  rw [e] at h
  constructor
  · refine rowSpan_of_rank A L _ _ (le_antisymm (Matrix.rank_mul_le_right _ _) ?_)
    rw [← h]; exact Matrix.rank_mul_le_left _ _
  · refine colSpan_of_rank A R _ _ (le_antisymm (Matrix.rank_mul_le_left _ _) ?_)
    rw [← h, Matrix.mul_assoc]; exact Matrix.rank_mul_le_right _ _

end TTS
