import Verif.Proofs.ProbTT
import Verif.Props.Ranks

/-!
# Ranks of unfoldings: reversal, and trimming of requested ranks
-/

namespace TTS

open Finset Spec

/-- the array with its modes in reverse order -/
def revND (A : ND ℝ) : ND ℝ := ND.ofFn A.shape.reverse fun i => A.get i.reverse

@[simp] theorem revND_shape (A : ND ℝ) : (revND A).shape = A.shape.reverse := rfl

theorem revND_get (A : ND ℝ) (i : List ℕ) : (revND A).get i = A.get i.reverse := by
  by_cases h : InR A.shape.reverse i
  · exact ND.ofFn_get h
  · rw [ND.supp _ _ (show ¬ InR (revND A).shape i from h), A.supp]
    intro h'; exact h (inR_reverse'.2 h')

/-- positions of an index and of the reversed index -/
def revEquiv {s s' : List ℕ} (h : s' = s.reverse) : Fin s'.prod ≃ Fin s.prod where
  toFun i := ⟨ravel s (unravel s' i).reverse, ravel_lt (inR_reverse'.1 (h ▸ unravel_inR i.2))⟩
  invFun j := ⟨ravel s' (unravel s j).reverse, ravel_lt (h ▸ (unravel_inR j.2).reverse)⟩
  left_inv i := by
    ext
    simp only []
    rw [unravel_ravel (inR_reverse'.1 (h ▸ unravel_inR i.2)), List.reverse_reverse, ravel_unravel i.2]
  right_inv j := by
    ext
    simp only []
    rw [unravel_ravel (h ▸ (unravel_inR j.2).reverse), List.reverse_reverse, ravel_unravel j.2]

theorem unravel_revEquiv {s s' : List ℕ} (h : s' = s.reverse) (i : Fin s'.prod) :
    unravel s (revEquiv h i) = (unravel s' i).reverse :=
  unravel_ravel (inR_reverse'.1 (h ▸ unravel_inR i.2))

theorem takeND_rev (A : ND ℝ) {k m : ℕ} (h : k + m = A.shape.length) :
    (revND A).shape.take m = (A.shape.drop k).reverse := by
  rw [revND_shape, List.take_reverse]; congr 2; omega

theorem dropND_rev (A : ND ℝ) {k m : ℕ} (h : k + m = A.shape.length) :
    (revND A).shape.drop m = (A.shape.take k).reverse := by
  rw [revND_shape, List.drop_reverse]; congr 2; omega

theorem revND_unfolding (A : ND ℝ) {k m : ℕ} (h : k + m = A.shape.length) : (revND A).unfolding m
    = (A.unfolding k).transpose.submatrix (revEquiv (takeND_rev A h)) (revEquiv (dropND_rev A h)) := by
  ext i j
  show (revND A).get _ = A.get (_ ++ _)
  rw [revND_get, unravel_revEquiv, unravel_revEquiv, List.reverse_append]

theorem revND_rank (A : ND ℝ) {k m : ℕ} (h : k + m = A.shape.length) :
    ((revND A).unfolding m).rank = (A.unfolding k).rank := by
  rw [revND_unfolding A h, Matrix.rank_submatrix, Matrix.rank_transpose]

/-- Contraction of the last modes, read backwards, keeps the rank. -/
theorem right_rank (A : ND ℝ) {k m r : ℕ} (h : k + m = A.shape.length) (R R' : List ℕ → ℕ → ℝ)
    (hR : ∀ q b, R q b = R' q.reverse b)
    (hk : ((revND A).unfolding m).rank ≤ (contracted (revND A) m r R').rank) :
    (A.unfolding k).rank ≤ (A.unfolding k * Matrix.of fun (j : Fin (A.shape.drop k).prod) (b : Fin r) =>
      R (unravel (A.shape.drop k) j) b).rank := by
  rw [revND_rank A h] at hk
  refine hk.trans (le_of_eq ?_)
  have e : contracted (revND A) m r R' = (A.unfolding k * Matrix.of fun (j : Fin (A.shape.drop k).prod) (b : Fin r) =>
      R (unravel (A.shape.drop k) j) b).transpose.submatrix (Equiv.refl _) (revEquiv (dropND_rev A h)) := by
    ext b j
    simp only [contracted, Matrix.mul_apply, Matrix.submatrix_apply, Matrix.transpose_apply, Matrix.of_apply,
      Equiv.refl_apply]
    refine Fintype.sum_equiv (revEquiv (takeND_rev A h)) _ _ fun i => ?_
    rw [hR, unravel_revEquiv, List.reverse_reverse, revND_unfolding A h, mul_comm]
    rfl
  rw [e, Matrix.rank_submatrix, Matrix.rank_transpose]

/-- Trimming does not cut below the ranks of the unfoldings. -/
theorem unfolding_le_trim (A : ND ℝ) (rs : List ℕ) (hl : rs.length + 1 = A.shape.length)
    (hr : ∀ k < rs.length, (A.unfolding (k + 1)).rank ≤ rs.getD k 0) (k : ℕ) (hk : k < rs.length) :
    (A.unfolding (k + 1)).rank ≤ (trimRanks A.shape rs).getD k 0 := by
  by_cases h0 : ∃ i, A.get i ≠ 0
  · obtain ⟨i, hi⟩ := h0
    have hin : InR A.shape i := by
      by_contra hc; exact hi (A.supp i hc)
    have hpos : ∀ m, 1 ≤ (A.unfolding m).rank := by
      intro m
      by_contra hc
      have h0 : (A.unfolding m).rank = 0 := by omega
      have h1 : LinearMap.range (A.unfolding m).mulVecLin = ⊥ := Submodule.finrank_eq_zero.1 h0
      rw [LinearMap.range_eq_bot] at h1
      have h2 := congrFun (congrArg (fun f => f (Pi.single ⟨_, ravel_lt (hin.drop m)⟩ 1)) h1) ⟨_, ravel_lt (hin.take m)⟩
      rw [Matrix.mulVecLin_apply, Matrix.mulVec_single_one] at h2
      apply hi
      have e : A.unfolding m ⟨_, ravel_lt (hin.take m)⟩ ⟨_, ravel_lt (hin.drop m)⟩ = A.get i := by
        show A.get (unravel _ _ ++ unravel _ _) = _
        rw [unravel_ravel (hin.take m), unravel_ravel (hin.drop m), List.take_append_drop]
      rw [← e]; exact h2
    have hle1 : ∀ m, m = 0 ∨ m = A.shape.length → (A.unfolding m).rank ≤ 1 := by
      rintro m (rfl | rfl)
      · refine (Matrix.rank_le_card_height _).trans (le_of_eq ?_); rw [Fintype.card_fin]; simp
      · refine (Matrix.rank_le_card_width _).trans (le_of_eq ?_); rw [Fintype.card_fin]; simp
    set cs := (List.range rs.length).map fun k => (A.unfolding (k + 1)).rank with hcs
    have hb : ∀ m ≤ A.shape.length, (bonds cs).getD m 0 = (A.unfolding m).rank := by
      intro m hm
      unfold bonds
      match m with
      | 0 => exact le_antisymm (hpos 0) (hle1 0 (.inl rfl))
      | m + 1 =>
        rw [List.getD_cons_succ]
        by_cases hm' : m < rs.length
        · rw [List.getD_append _ _ _ _ (by simpa [hcs] using hm'), hcs, getD_map_range _ _ _ _ hm']
        · have e : m = rs.length := by omega
          subst e
          have h1 := hpos (rs.length + 1)
          have h2 := hle1 (rs.length + 1) (.inr hl)
          have : cs.length = rs.length := by simp [hcs]
          rw [List.getD_append_right _ _ _ _ this.le, this, Nat.sub_self]
          exact le_antisymm h1 h2
    have := Props.C03_greatest A.shape rs cs hl ⟨by simp [hcs, hl], fun m hm => ?_⟩
      ⟨by simp [hcs], fun m hm => ?_⟩
    · have := this.2 k (by simpa [hcs] using hk)
      rwa [hcs, getD_map_range _ _ _ _ hk] at this
    · rw [hb m (by omega), hb (m + 1) (by omega)]
      refine ⟨unfolding_rank_succ A m hm, ?_⟩
      have := unfolding_rank_succ (revND A) (A.shape.length - (m + 1)) (by rw [revND_shape, List.length_reverse]; omega)
      rw [revND_rank A (k := m) (by omega), revND_rank A (k := m + 1) (by omega), revND_shape,
        reverse_getD _ _ (by omega)] at this
      have e : A.shape.length - 1 - (A.shape.length - (m + 1)) = m := by omega
      rw [e] at this
      rw [mul_comm]; exact this
    · have hm' : m < rs.length := by simpa [hcs] using hm
      rw [hcs, getD_map_range _ _ _ _ hm']; exact hr m hm'
  · push Not at h0
    have : A.unfolding (k + 1) = 0 := by ext i j; exact h0 _
    rw [this, Matrix.rank_zero]; exact Nat.zero_le _

end TTS
