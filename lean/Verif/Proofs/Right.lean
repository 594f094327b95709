import Verif.Proofs.Psi

/-! Contractions with right DRMs, from contractions of the transposed tensor. -/

namespace TTS

open Finset

variable {K : Type*}

section
variable [CommSemiring K]

theorem take_reverse' {α : Type*} (l : List α) (k : ℕ) (hk : k ≤ l.length) :
    l.reverse.take (l.length - k) = (l.drop k).reverse := by
  rw [List.take_reverse]; congr 2; omega

/-- Sparse, TT and CP: the right matrix reads the suffix backwards. -/
theorem right_sparse {X : Sparse K} (hX : X.Valid) {k r : ℕ} {L : List ℕ → ℕ → K} {M : ND K}
    (hk : k ≤ X.shape.length) (h : IsContrL (.sparse X.T) (X.shape.length - k) r L M) :
    IsContrR (.sparse X) k r (fun q b => L q.reverse b) M := by
  obtain ⟨h1, h2⟩ := h
  refine ⟨by rw [h1]; simp [Sparse.nnz, Sparse.T], fun e he b hb => ?_⟩
  rw [h2 e (by simpa [Sparse.T] using he) b hb]
  have hl : X.entries[e].1.length = X.shape.length := (hX _ (List.getElem_mem he)).length
  have : (X.T.entries[e]'(by simpa [Sparse.T] using he)).1 = X.entries[e].1.reverse := by
    simp [Sparse.T]
  rw [this, ← hl, take_reverse' _ _ (by omega)]

theorem right_tt {X : TT K} (hX : X.Valid) {k r : ℕ} {L : List ℕ → ℕ → K} {M : ND K}
    (hk : k < X.shape.length) (h : IsContrL (.tt X.T) (X.shape.length - k) r L M) :
    IsContrR (.tt X) k r (fun q b => L q.reverse b) M := by
  obtain ⟨x, h1, h2, h3⟩ := h
  have hlen : X.cores.length = X.shape.length := by simp [TT.shape]
  obtain ⟨s, c1, c2⟩ := TTChain.split (As := X.cores.take k) (Bs := X.cores.drop k)
    (by rw [List.take_append_drop]; exact hX.2)
  have hc : X.T.cores.take (X.shape.length - k)
      = (X.cores.drop k).reverse.map fun C => C.transpose [2, 1, 0] := by
    show ((X.cores.reverse.map _).take _) = _
    rw [← List.map_take, ← hlen, take_reverse' _ _ (by omega)]
  have hne : (X.cores.drop k).reverse.map (fun C => C.transpose [2, 1, 0]) ≠ [] := by
    simp; omega
  rw [hc] at h1
  have hx : x = s := TTChain.unique hne h1 (tr_chain c2)
  subst hx
  refine ⟨x, c2, h2, fun y b hy hb => ?_⟩
  rw [h3 y b hb, hc]
  have hs : X.T.shape.take (X.shape.length - k) = (X.shape.drop k).reverse := by
    rw [TT.T_shape X hX, take_reverse' _ _ (by omega)]
  rw [hs, sumIdx_reverse]
  refine sumIdx_congr fun q hq => ?_
  congr 1
  exact ttVal_tr c2 q y 0 hy (by simp)

theorem right_cp {X : CP K} (hX : X.Valid) {k r : ℕ} {L : List ℕ → ℕ → K} {M : ND K}
    (hk : k ≤ X.shape.length) (h : IsContrL (.cp X.T) (X.shape.length - k) r L M) :
    IsContrR (.cp X) k r (fun q b => L q.reverse b) M := by
  obtain ⟨h2, h3⟩ := h
  rw [CP.T_rank hX] at h2 h3
  have hlen : X.cores.length = X.shape.length := by simp [CP.shape]
  refine ⟨h2, fun i b hi hb => ?_⟩
  rw [h3 i b hi hb]
  have hs : X.T.shape.take (X.shape.length - k) = (X.shape.drop k).reverse := by
    rw [CP.T_shape X, take_reverse' _ _ hk]
  have hc : X.T.cores.take (X.shape.length - k) = (X.cores.drop k).reverse := by
    show X.cores.reverse.take _ = _
    rw [← hlen, take_reverse' _ _ (by omega)]
  rw [hs, sumIdx_reverse, hc]
  exact sumIdx_congr fun q hq => by rw [cpProd_reverse]

/-- Dense: the columns are read in row-major order of the unreversed suffix. -/
theorem right_dense {X : ND K} {k r : ℕ} {L : List ℕ → ℕ → K} {M : ND K}
    (hk : k ≤ X.shape.length) (h : IsContrL (Leaf.dense X).T (X.shape.length - k) r L M) :
    IsContrR (.dense X) k r
      (fun q b => L (unravel (X.shape.drop k).reverse (ravel (X.shape.drop k) q)) b) M := by
  obtain ⟨h1, h2⟩ := h
  have hs : (X.transpose (List.range X.ndim).reverse).shape.take (X.shape.length - k)
      = (X.shape.drop k).reverse := by
    rw [ND.transpose_rev_shape, take_reverse' _ _ hk]
  rw [hs] at h1 h2
  refine ⟨by rw [h1, List.prod_reverse], fun q b hq hb => ?_⟩
  have hlt : ravel (X.shape.drop k) q < (X.shape.drop k).reverse.prod := by
    rw [List.prod_reverse]; exact ravel_lt hq
  have := h2 (unravel (X.shape.drop k).reverse (ravel (X.shape.drop k) q)) b (unravel_inR hlt) hb
  rw [ravel_unravel hlt] at this
  exact this

/-- Tucker: right when only one mode is contracted. -/
theorem right_tucker {X : Tucker K} {k r : ℕ} {L : List ℕ → ℕ → K} {M : ND K}
    (hk : k + 1 = X.shape.length) (h : IsContrL (.tucker X.T) (X.shape.length - k) r L M) :
    IsContrR (.tucker X) k r (fun q b => L q.reverse b) M := by
  obtain ⟨h1, h2⟩ := h
  have hrl : X.rank.length = X.shape.length := by simp [Tucker.rank, Tucker.shape]
  have hfl : X.factors.length = X.shape.length := by simp [Tucker.shape]
  have hr : X.T.rank.take (X.shape.length - k) = (X.rank.drop k).reverse := by
    rw [Tucker.T_rank, ← hrl, take_reverse' _ _ (by omega)]
  have hs : X.T.shape.take (X.shape.length - k) = (X.shape.drop k).reverse := by
    rw [Tucker.T_shape, take_reverse' _ _ (by omega)]
  have hf : X.T.factors.take (X.shape.length - k) = (X.factors.drop k).reverse := by
    show X.factors.reverse.take _ = _
    rw [← hfl, take_reverse' _ _ (by omega)]
  rw [hr] at h1 h2
  refine ⟨by rw [h1, List.prod_reverse], fun q b hq hb => ?_⟩
  have hone : X.rank.drop k = [X.rank.getD k 0] := by
    rw [drop_eq_getD_cons (by omega) 0, List.drop_eq_nil_of_le (by omega)]
  have hrr : (X.rank.drop k).reverse = X.rank.drop k := by rw [hone]; rfl
  rw [hrr] at h2
  rw [h2 q b hq hb, hs, sumIdx_reverse, hf]
  refine sumIdx_congr fun p _ => ?_
  have hq' : q.reverse = q := by
    rw [hone] at hq
    match q, hq with
    | [a], _ => rfl
  conv_lhs => rw [← hq', facProd_reverse]

/-- Dense, one mode: same as the others. -/
theorem right_dense_one {X : ND K} {k r : ℕ} {L : List ℕ → ℕ → K} {M : ND K}
    (hk : k + 1 = X.shape.length) (h : IsContrL (Leaf.dense X).T (X.shape.length - k) r L M) :
    IsContrR (.dense X) k r (fun q b => L q.reverse b) M := by
  obtain ⟨h1, h2⟩ := right_dense (by omega) h
  refine ⟨h1, fun q b hq hb => ?_⟩
  rw [h2 q b hq hb]
  have hone : X.shape.drop k = [X.shape.getD k 0] := by
    rw [drop_eq_getD_cons (by omega) 0, List.drop_eq_nil_of_le (by omega)]
  rw [hone] at hq ⊢
  match q, hq with
  | [a], hq => 
    show L (unravel [X.shape.getD k 0] (ravel [X.shape.getD k 0] [a])) b = _
    rw [unravel_ravel hq]; rfl

end
end TTS
