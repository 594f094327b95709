import Verif.Proofs.Leaf

/-! Success and result shapes of the streaming sketch for every format, whatever the entries. -/

namespace TTS

open Finset

variable {K : Type*}

section
variable [CommSemiring K]

/-- shape part of `IsContrL` -/
def ShapeL (X : Leaf K) (k r : ℕ) (M : ND K) : Prop :=
  match X with
  | .sparse X => M.shape = [r, X.nnz]
  | .tt X => ∃ x, TTChain 1 (X.cores.take k) x ∧ M.shape = [x, r]
  | .cp X => M.shape = [X.rank, r]
  | .dense X => M.shape = [r, (X.shape.take k).prod]
  | .tucker X => M.shape = [(X.rank.take k).prod, r]

/-- shape part of `IsContrR` -/
def ShapeR (X : Leaf K) (k r : ℕ) (M : ND K) : Prop :=
  match X with
  | .sparse X => M.shape = [r, X.nnz]
  | .tt X => ∃ x, TTChain x (X.cores.drop k) 1 ∧ M.shape = [x, r]
  | .cp X => M.shape = [X.rank, r]
  | .dense X => M.shape = [r, (X.shape.drop k).prod]
  | .tucker X => M.shape = [(X.rank.drop k).prod, r]

theorem IsContrL.shapeL {X : Leaf K} {k r : ℕ} {L : List ℕ → ℕ → K} {M : ND K}
    (h : IsContrL X k r L M) : ShapeL X k r M := by
  cases X with
  | tt X => obtain ⟨x, h1, h2, _⟩ := h; exact ⟨x, h1, h2⟩
  | _ => exact h.1

theorem shapeR_of_T {X : Leaf K} (hX : X.Valid) {k r : ℕ} {L : List ℕ → ℕ → K} {M : ND K}
    (hk : k < X.shape.length) (h : IsContrL X.T (X.shape.length - k) r L M) : ShapeR X k r M := by
  cases X with
  | sparse X => exact (right_sparse hX (by exact hk.le) h).1
  | tt X => obtain ⟨x, h1, h2, _⟩ := right_tt hX hk h; exact ⟨x, h1, h2⟩
  | cp X => exact (right_cp hX (by exact hk.le) h).1
  | dense X => exact (right_dense (by exact hk.le) h).1
  | tucker X =>
    have h1 := h.1
    have hrl : X.rank.length = X.shape.length := by simp [Tucker.rank, Tucker.shape]
    have hk' : k < X.shape.length := hk
    show M.shape = _
    rw [h1, Tucker.T_rank]
    show [(X.rank.reverse.take (X.shape.length - k)).prod, r] = _
    rw [← hrl, take_reverse' _ _ (by omega), List.prod_reverse]

theorem omega_shape {X : Leaf K} {mu : ℕ} {lr rr : ℕ} {l r : ND K}
    (hl : ShapeL X (mu + 1) lr l) (hr : ShapeR X (mu + 1) rr r) :
    (omegaLeaf X mu l r).shape = [lr, rr] := by
  cases X with
  | sparse X =>
    show [_, _] = _
    simp only [ND.mulCols, ND.dim, ND.ofFn_shape, ND.matT]
    simp [show l.shape = _ from hl, show r.shape = _ from hr]
  | tt X =>
    obtain ⟨x, _, hl⟩ := hl
    obtain ⟨y, _, hr⟩ := hr
    exact ND.matmul_shape' (ND.matT_shape hl) hr
  | cp X => exact ND.matmul_shape' (ND.matT_shape hl) hr
  | dense X =>
    show [_, _] = _
    simp only [ND.matmul, ND.dim, ND.ofFn_shape, ND.matT]
    simp [show l.shape = _ from hl, show r.shape = _ from hr]
  | tucker X =>
    show [_, _] = _
    simp only [ND.matmul, ND.dim, ND.ofFn_shape, ND.matT]
    simp [show l.shape = _ from hl, show r.shape = _ from hr]

/-- shape part of `PsiArgs` -/
structure PsiShapes (X : Leaf K) (mu lr rr : ℕ) (lo ro : Option (ND K)) : Prop where
  left : (mu = 0 ∧ lo = none ∧ lr = 1) ∨ (0 < mu ∧ ∃ l, lo = some l ∧ ShapeL X mu lr l)
  right : (mu + 1 = X.shape.length ∧ ro = none ∧ rr = 1) ∨
    (mu + 1 < X.shape.length ∧ ∃ r, ro = some r ∧ ShapeR X (mu + 1) rr r)

theorem psi_shape {X : Leaf K} (hX : X.Valid) (hd : 2 ≤ X.shape.length) {mu lr rr : ℕ}
    {lo ro : Option (ND K)} (h : PsiShapes X mu lr rr lo ro) :
    ∃ P, psiLeaf X mu [lr, X.shape.getD mu 0, rr] lo ro = .ok P ∧
      P.shape = [lr, X.shape.getD mu 0, rr] := by
  have hmu : mu < X.shape.length := by
    rcases h.right with ⟨h1, _⟩ | ⟨h1, _⟩ <;> omega
  cases X with
  | sparse X =>
    have : ∀ j, ∃ g, psiSparseSlice X mu j lo ro = .ok g := by
      intro j
      unfold psiSparseSlice
      rcases h.left with ⟨h0, rfl, rfl⟩ | ⟨h0, l, rfl, hl⟩ <;>
      rcases h.right with ⟨h1, rfl, rfl⟩ | ⟨h1, r, rfl, hr⟩
      · omega
      · rw [if_pos h0]; exact ⟨_, rfl⟩
      · have h1' : mu + 1 = X.shape.length := h1
        rw [if_neg (by omega), if_pos (by omega)]; exact ⟨_, rfl⟩
      · have h1' : mu + 1 < X.shape.length := h1
        rw [if_neg (by omega), if_neg (by omega)]; exact ⟨_, rfl⟩
    choose g hg using this
    exact ⟨_, psiSparse_ok X mu _ lo ro g fun j _ => hg j, rfl⟩
  | tt X =>
    have hlen : X.cores.length = X.shape.length := by simp [TT.shape]
    have hmu' : mu < X.shape.length := hmu
    obtain ⟨x, hc, h0, h1⟩ := TT.Valid.cores hX
    have hC := hc mu (by omega)
    rcases h.left with ⟨h0', rfl, rfl⟩ | ⟨h0', l, rfl, y, hl1, hl2⟩ <;>
    rcases h.right with ⟨h1', rfl, rfl⟩ | ⟨h1', r, rfl, z, hr1, hr2⟩
    · omega
    · have h1' : mu + 1 < X.shape.length := h1'
      refine ⟨_, rfl, ?_⟩
      subst h0'
      rw [h0] at hC
      exact ND.es_ijk_kl_ijl_shape hC hr2
    · have h1' : mu + 1 = X.shape.length := h1'
      refine ⟨_, rfl, ?_⟩
      rw [show mu + 1 = X.cores.length by omega, h1] at hC
      exact ND.es_ij_jkl_ikl_shape (ND.matT_shape hl2) hC
    · exact ⟨_, rfl, ND.es_ij_jkl_lm_ikm_shape (ND.matT_shape hl2) hC hr2⟩
  | cp X =>
    have hlen : X.cores.length = X.shape.length := by simp [CP.shape]
    have hmu' : mu < X.shape.length := hmu
    have hC : (X.cores.getD mu (ND.zeros [])).shape = [X.shape.getD mu 0, X.rank] := by
      have hm : X.cores.getD mu (ND.zeros []) ∈ X.cores := by
        rw [getD_eq (by omega)]; exact List.getElem_mem _
      obtain ⟨n, hn⟩ := hX.2 _ hm
      have : X.shape.getD mu 0 = n := by
        unfold CP.shape
        rw [getD_map_lt _ _ mu (by omega) (ND.zeros [])]
        unfold ND.dim; rw [hn]; rfl
      rw [this, hn]
    rcases h.left with ⟨h0', rfl, rfl⟩ | ⟨h0', l, rfl, hl⟩ <;>
    rcases h.right with ⟨h1', rfl, rfl⟩ | ⟨h1', r, rfl, hr⟩
    · omega
    · refine ⟨_, rfl, ?_⟩
      show 1 :: _ = _
      rw [ND.es_ji_il_jl_shape hC hr]; rfl
    · refine ⟨_, rfl, ?_⟩
      show _ ++ [1] = _
      rw [ND.es_il_kl_ik_shape (ND.matT_shape hl) hC]; rfl
    · exact ⟨_, rfl, ND.es_ij_kj_jm_ikm_shape (ND.matT_shape hl) hC hr⟩
  | dense X =>
    have hmu' : mu < X.shape.length := hmu
    rcases h.left with ⟨h0', rfl, rfl⟩ | ⟨h0', l, rfl, hl⟩ <;>
    rcases h.right with ⟨h1', rfl, rfl⟩ | ⟨h1', r, rfl, hr⟩
    · omega
    · refine ⟨_, rfl, ?_⟩
      have hm : (X.matricize [0] true).shape = [X.shape.getD 0 0, (X.shape.drop 1).prod] := by
        have := matricize_range_true X 1 (by have : 2 ≤ X.shape.length := hd; omega)
        rw [show List.range 1 = [0] from rfl] at this
        rw [this, ND.reshape_shape, take_two_getD (by omega) 0]; simp
      subst h0'
      show 1 :: _ = _
      rw [ND.matmul_shape' hm (ND.matT_shape hr)]; rfl
    · refine ⟨_, rfl, ?_⟩
      have h1' : mu + 1 = X.shape.length := h1'
      have hm : ((X.matricize [X.ndim - 1] true).matT).dim 1 = X.shape.getD mu 0 := by
        have : X.ndim - 1 = mu := by show X.shape.length - 1 = mu; omega
        rw [this]
        simp [ND.matricize, ND.matT, ND.dim, ND.transpose]
      show [_, _] ++ [1] = _
      rw [hm]
      have : l.dim 0 = lr := by unfold ND.dim; rw [show l.shape = _ from hl]; rfl
      rw [this]; rfl
    · refine ⟨_, rfl, ?_⟩
      have h1' : mu + 1 < X.shape.length := h1'
      have hm : (X.matricize (List.range (mu + 1)) false).dim mu = X.shape.getD mu 0 := by
        rw [matricize_range_false X _ (by omega)]
        simp only [ND.dim, ND.reshape_shape]
        rw [List.getD_append _ _ _ _ (by simp; omega), ← List.getD_append _ (X.shape.drop (mu + 1)) 0 mu (by simp; omega), List.take_append_drop]
      refine (ND.es_ij_jkl_ml_ikm_shape hl (ND.reshape_shape _ _) hr).trans ?_
      rw [hm]; rfl
  | tucker X =>
    have hrl : X.rank.length = X.shape.length := by simp [Tucker.rank, Tucker.shape]
    have hfl : X.factors.length = X.shape.length := by simp [Tucker.shape]
    have hmu' : mu < X.shape.length := hmu
    have hres : X.core.reshape? [(X.rank.take mu).prod, X.rank.getD mu 0, (X.rank.drop (mu + 1)).prod]
        = .ok (dense3 X.core mu) := by
      unfold ND.reshape? dense3
      have hp : X.core.shape.prod = (X.rank.take mu).prod * (X.rank.getD mu 0 * (X.rank.drop (mu + 1)).prod) := by
        rw [hX.2]
        conv_lhs => rw [shape_three X.rank (by omega : mu < X.rank.length)]
        simp
      rw [if_pos (by simp [hp]), hX.2]
    have hC : (dense3 X.core mu).shape
        = [(X.rank.take mu).prod, X.rank.getD mu 0, (X.rank.drop (mu + 1)).prod] := by
      unfold dense3; rw [ND.reshape_shape, hX.2]
    have hU : (X.factors.getD mu (ND.zeros [])).shape = [X.rank.getD mu 0, X.shape.getD mu 0] := by
      have hm : X.factors.getD mu (ND.zeros []) ∈ X.factors := by
        rw [getD_eq (by omega)]; exact List.getElem_mem _
      obtain ⟨s, n, hn⟩ := hX.1 _ hm
      unfold Tucker.shape Tucker.rank
      rw [getD_map_lt _ _ mu (by omega) (ND.zeros []), getD_map_lt _ _ mu (by omega) (ND.zeros [])]
      unfold ND.dim; rw [hn]; rfl
    have main : ∀ P : ND K, psiCore (dense3 X.core mu) lo ro = .ok P →
        P.shape = [lr, X.rank.getD mu 0, rr] →
        ((lo.map fun l => l.dim 0).getD 1) = (X.rank.take mu).prod →
        ((ro.map fun r => r.dim 0).getD 1) = (X.rank.drop (mu + 1)).prod →
        ∃ P, psiLeaf (.tucker X) mu [lr, X.shape.getD mu 0, rr] lo ro = .ok P ∧
          P.shape = [lr, X.shape.getD mu 0, rr] := by
      intro P hP hs h1 h2
      refine ⟨ND.es_ijk_jl_ilk P (X.factors.getD mu (ND.zeros [])), ?_, ND.es_ijk_jl_ilk_shape hs hU⟩
      show psiTucker X mu lo ro = _
      unfold psiTucker
      simp only [h1, h2, hres, hP]
    rcases h.left with ⟨h0', rfl, rfl⟩ | ⟨h0', l, rfl, hl⟩ <;>
    rcases h.right with ⟨h1', rfl, rfl⟩ | ⟨h1', r, rfl, hr⟩
    · omega
    · subst h0'
      refine main _ rfl ?_ (by simp) (by simp [ND.dim, show r.shape = _ from hr])
      exact ND.es_ijk_kl_ijl_shape hC hr
    · have h1' : mu + 1 = X.shape.length := h1'
      have hdn : X.rank.drop (mu + 1) = [] := List.drop_eq_nil_of_le (by omega)
      refine main _ rfl ?_ (by simp [ND.dim, show l.shape = _ from hl]) (by simp [hdn])
      rw [hdn] at hC
      exact ND.es_ij_jkl_ikl_shape (ND.matT_shape hl) hC
    · exact main _ rfl (ND.es_ij_jkl_lm_ikm_shape (ND.matT_shape hl) hC hr)
        (by simp [ND.dim, show l.shape = _ from hl]) (by simp [ND.dim, show r.shape = _ from hr])

end

section
variable [CommRing K]

theorem parts_exist {env : Env K} {l r : DRM K} {X : Leaf K} (hl : l.Accepts X) (hr : r.Accepts X)
    (hlt : l.transpose = false) (hrt : r.transpose = true) :
    ∃ O P : ℕ → ND K, Parts env l r X.shape X O P ∧
      (∀ mu < X.shape.length - 1, (O mu).shape = [l.rank.getD mu 0, r.rank.reverse.getD mu 0]) ∧
      (∀ mu < X.shape.length, (P mu).shape = psiShape X.shape l.rank r.rank.reverse mu) := by
  obtain ⟨l1, l2⟩ := left_spec env hl hlt
  obtain ⟨r1, r2⟩ := right_raw env hr hrt
  have hd2 := hl.dim
  have hL : ∀ k < X.shape.length - 1, ShapeL X (k + 1) (l.rank.getD k 0)
      ((l.sketchD env X).getD k (ND.zeros [])) := fun k hk => (l2 k hk).shapeL
  have hR : ∀ k < X.shape.length - 1, ShapeR X (k + 1) (r.rank.reverse.getD k 0)
      ((r.sketchD env X).getD k (ND.zeros [])) :=
    fun k hk => shapeR_of_T hl.valid (by omega) (r2 k hk)
  have hP : ∀ mu, ∃ P : ND K, mu < X.shape.length →
      psiLeaf X mu (psiShape X.shape l.rank r.rank.reverse mu)
        (loAt (l.sketchD env X) mu) (roAt (r.sketchD env X) X.shape.length mu) = .ok P ∧
      P.shape = psiShape X.shape l.rank r.rank.reverse mu := by
    intro mu
    by_cases hmu : mu < X.shape.length
    · obtain ⟨P, h1, h2⟩ := psi_shape hl.valid hd2 (mu := mu)
        (lr := if 0 < mu then l.rank.getD (mu - 1) 0 else 1)
        (rr := if mu < X.shape.length - 1 then r.rank.reverse.getD mu 0 else 1)
        (lo := loAt (l.sketchD env X) mu) (ro := roAt (r.sketchD env X) X.shape.length mu) ⟨by
          rcases Nat.eq_zero_or_pos mu with h0 | h0
          · left; subst h0; exact ⟨rfl, rfl, rfl⟩
          · right
            refine ⟨h0, _, if_pos h0, ?_⟩
            have := hL (mu - 1) (by omega)
            rw [show mu - 1 + 1 = mu by omega] at this
            rwa [if_pos h0], by
          by_cases h1 : mu < X.shape.length - 1
          · right
            refine ⟨by omega, _, if_pos h1, ?_⟩
            rw [if_pos h1]; exact hR mu h1
          · left
            exact ⟨by omega, if_neg h1, if_neg h1⟩⟩
      exact ⟨P, fun _ => ⟨h1, h2⟩⟩
    · exact ⟨ND.zeros [], fun h => absurd h hmu⟩
  choose P hP using hP
  exact ⟨fun mu => omegaLeaf X mu ((l.sketchD env X).getD mu (ND.zeros []))
    ((r.sketchD env X).getD mu (ND.zeros [])), P,
    ⟨rfl, l1, r1, fun mu _ => rfl, fun mu hmu => (hP mu hmu).1⟩,
    fun mu hmu => omega_shape (hL mu hmu) (hR mu hmu), fun mu hmu => (hP mu hmu).2⟩

end
end TTS
