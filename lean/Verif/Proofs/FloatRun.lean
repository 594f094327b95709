import Verif.Proofs.Float
import Verif.Proofs.TensorDot

/-! Rounding errors of whole programs. -/

namespace TTS
open Finset ND

theorem TTChain.abs {r s : ℕ} : ∀ {Cs : List (ND ℝ)}, TTChain r Cs s → TTChain r (Cs.map ND.abs) s
  | [], h => h
  | C :: Cs, ⟨n, t, hC, h⟩ => ⟨n, t, hC, TTChain.abs (Cs := Cs) h⟩

theorem TT.abs_valid {X : TT ℝ} (h : X.Valid) : X.abs.Valid :=
  ⟨by simpa [TT.abs] using h.1, h.2.abs⟩

theorem TT.abs_shape (X : TT ℝ) : X.abs.shape = X.shape := by
  simp [TT.abs, TT.shape, List.map_map, Function.comp_def, ND.dim, ND.abs_shape]

theorem CP.abs_rank (X : CP ℝ) : X.abs.rank = X.rank := by
  obtain ⟨cores⟩ := X
  cases cores <;> simp [CP.abs, CP.rank, ND.dim, ND.abs_shape]

theorem CP.abs_valid {X : CP ℝ} (h : X.Valid) : X.abs.Valid := by
  refine ⟨by simpa [CP.abs] using h.1, ?_⟩
  rw [CP.abs_rank]
  intro C hC
  obtain ⟨D, hD, rfl⟩ := List.mem_map.1 hC
  exact h.2 D hD

theorem CP.abs_shape (X : CP ℝ) : X.abs.shape = X.shape := by
  simp [CP.abs, CP.shape, List.map_map, Function.comp_def, ND.dim, ND.abs_shape]

theorem Tucker.abs_rank (X : Tucker ℝ) : X.abs.rank = X.rank := by
  simp [Tucker.abs, Tucker.rank, List.map_map, Function.comp_def, ND.dim, ND.abs_shape]

theorem Tucker.abs_shape (X : Tucker ℝ) : X.abs.shape = X.shape := by
  simp [Tucker.abs, Tucker.shape, List.map_map, Function.comp_def, ND.dim, ND.abs_shape]

theorem Tucker.abs_valid {X : Tucker ℝ} (h : X.Valid) : X.abs.Valid := by
  constructor
  · intro U hU
    obtain ⟨D, hD, rfl⟩ := List.mem_map.1 hU
    exact h.1 D hD
  · rw [Tucker.abs_rank]; exact h.2

theorem Sparse.abs_valid {X : Sparse ℝ} (h : X.Valid) : X.abs.Valid := by
  intro e he
  obtain ⟨f, hf, rfl⟩ := List.mem_map.1 he
  exact h f hf

theorem Sparse.abs_distinct {X : Sparse ℝ} (h : X.Distinct) : X.abs.Distinct := by
  unfold Sparse.Distinct Sparse.abs at *
  simpa [List.map_map, Function.comp_def] using h

theorem Leaf.abs_valid {X : Leaf ℝ} (h : X.Valid) : X.abs.Valid := by
  cases X with
  | dense X => trivial
  | sparse X => exact Sparse.abs_valid h
  | tt X => exact TT.abs_valid h
  | cp X => exact CP.abs_valid h
  | tucker X => exact Tucker.abs_valid h

theorem Leaf.abs_distinct {X : Leaf ℝ} (h : X.Distinct) : X.abs.Distinct := by
  cases X with
  | sparse X => exact Sparse.abs_distinct h
  | _ => trivial

theorem Leaf.abs_shape (X : Leaf ℝ) : X.abs.shape = X.shape := by
  cases X with
  | dense X => rfl
  | sparse X => rfl
  | tt X => exact TT.abs_shape X
  | cp X => exact CP.abs_shape X
  | tucker X => exact Tucker.abs_shape X

theorem pow_mul_comb (u : ℝ) (a b : ℕ) : (1 + u) ^ a * ((1 + u) ^ b * 1) = (1 + u) ^ (b + a) := by
  rw [mul_one, ← pow_add, Nat.add_comm]

/-! ### to_numpy -/

theorem tt_dense_fold {u : ℝ} (hu : 0 ≤ u) : ∀ (Cs : List (ND ℝ)) {B' B M B'' : ND ℝ} {s : List ℕ}
    {q r N : ℕ}, TTChain q Cs r → B.shape = s ++ [q] → NDNear ((1 + u) ^ N) B' B M →
    flFold (fun A C A' => FlEinsumE u A [.j] C [.j, .k, .l] [.k, .l] A') B' Cs B'' →
    NDNear ((1 + u) ^ (N + (Cs.map fun C => C.dim 0).sum)) B'' (Cs.foldl ND.es_ej_jkl B)
      ((Cs.map ND.abs).foldl ND.es_ej_jkl M)
  | [], B', B, M, B'', s, q, r, N, _, _, h, hf => by
    cases hf; simpa using h
  | C :: Cs, B', B, M, B'', s, q, r, N, ⟨n, t, hC, hch⟩, hB, h, hf => by
    obtain ⟨B1, h1, hf⟩ := hf
    have k := NDNear.einsumE hu (one_le_pow_u hu N) le_rfl h (NDNear.rfl' C) _ _ _ h1
    have e : ((lbSummed [Lb.k, Lb.l] ([Lb.j] ++ [Lb.j, Lb.k, Lb.l])).map
        (lbDim [([Lb.j], B.shape.drop (B.ndim - [Lb.j].length)), ([Lb.j, Lb.k, Lb.l], C.shape)])).prod
        = q := by
      simp [hB, ND.ndim, lbSummed, lbDim, lbGet?]
    rw [e, pow_mul_comb] at k
    have hB1 : (ND.es_ej_jkl B C).shape = (s ++ [n]) ++ [t] := by
      rw [ND.es_ej_jkl_shape hB hC]; simp
    have := tt_dense_fold hu Cs hch hB1 k hf
    have hd : C.dim 0 = q := by simp [ND.dim, hC]
    rw [List.map_cons, List.sum_cons, hd, ← Nat.add_assoc]
    exact this

theorem TT.toNumpy_near {u : ℝ} (hu : 0 ≤ u) {X : TT ℝ} (h : X.Valid) {B : ND ℝ}
    (hB : X.FlToNumpy u B) : NDNear ((1 + u) ^ X.rank.sum) B X.toNumpy X.abs.toNumpy := by
  obtain ⟨cores⟩ := X
  obtain ⟨hne, hch⟩ := h
  match cores, hne, hch with
  | C :: Cs, _, ⟨n, t, hC, hCs⟩ =>
    obtain ⟨A, hA, rfl⟩ := hB
    have h0 := (NDNear.rfl' C).reshape C.shape.tail
    have hs : (C.reshape C.shape.tail).shape = [n] ++ [t] := by simp [hC]
    have h0' : NDNear ((1 + u) ^ 0) (C.reshape C.shape.tail) (C.reshape C.shape.tail)
      (C.abs.reshape C.shape.tail) := by simpa using h0
    have := tt_dense_fold hu Cs hCs hs h0' hA
    rw [Nat.zero_add] at this
    have h1 := this.reshape A.shape.dropLast
    have e1 := this.1
    have e2 := this.2.1
    show NDNear _ _ ((Cs.foldl ND.es_ej_jkl (C.reshape C.shape.tail)).reshape _)
      (((Cs.map ND.abs).foldl ND.es_ej_jkl (C.abs.reshape C.abs.shape.tail)).reshape _)
    rw [← e1]
    have e3 : (List.foldl es_ej_jkl (C.abs.reshape C.abs.shape.tail) (List.map ND.abs Cs)).shape = A.shape :=
      e2.trans e1.symm
    rw [e3]
    exact h1

theorem cp_dense_fold {u : ℝ} (hu : 0 ≤ u) : ∀ (Cs : List (ND ℝ)) {B' B M B'' : ND ℝ}
    {N : ℕ}, NDNear ((1 + u) ^ N) B' B M →
    flFold (fun A C A' => FlEinsumE u A [.j] C [.i, .j] [.i, .j] A') B' Cs B'' →
    NDNear ((1 + u) ^ (N + Cs.length)) B'' (Cs.foldl ND.es_ej_ij B)
      ((Cs.map ND.abs).foldl ND.es_ej_ij M)
  | [], B', B, M, B'', N, h, hf => by
    cases hf; simpa using h
  | C :: Cs, B', B, M, B'', N, h, hf => by
    obtain ⟨B1, h1, hf⟩ := hf
    have k := NDNear.einsumE hu (one_le_pow_u hu N) le_rfl h (NDNear.rfl' C) _ _ _ h1
    have e : ((lbSummed [Lb.i, Lb.j] ([Lb.j] ++ [Lb.i, Lb.j])).map
        (lbDim [([Lb.j], B.shape.drop (B.ndim - [Lb.j].length)), ([Lb.i, Lb.j], C.shape)])).prod
        = 1 := by
      simp [lbSummed]
    rw [e, pow_mul_comb] at k
    have := cp_dense_fold hu Cs k hf
    rw [List.length_cons, show N + (Cs.length + 1) = N + 1 + Cs.length by omega]
    exact this

theorem CP.toNumpy_near {u : ℝ} (hu : 0 ≤ u) {X : CP ℝ} (h : X.Valid) {B : ND ℝ}
    (hB : X.FlToNumpy u B) :
    NDNear ((1 + u) ^ ((X.cores.length - 1) + (X.rank - 1))) B X.toNumpy X.abs.toNumpy := by
  obtain ⟨cores⟩ := X
  obtain ⟨hne, hch⟩ := h
  match cores, hne, hch with
  | C :: Cs, _, hc =>
    obtain ⟨A, hA, hB⟩ := hB
    have h0' : NDNear ((1 + u) ^ 0) C C C.abs := by simpa using NDNear.rfl' C
    have h1 := cp_dense_fold hu Cs h0' hA
    have h2 := h1.sumLast hu hB
    obtain ⟨n, hC⟩ := hc C (by simp)
    have hl : (Cs.foldl ND.es_ej_ij C).shape.getLastD 0 = CP.rank ⟨C :: Cs⟩ := by
      obtain ⟨h1, _⟩ := foldl_ej_ij Cs (A := C) (s := [n]) (r := CP.rank ⟨C :: Cs⟩)
        (by simpa using hC) (fun D hD => hc D (by simp [hD]))
      rw [h1, List.getLastD_concat]
    rw [hl, Nat.zero_add, ← pow_add, Nat.add_comm] at h2
    exact h2

theorem tucker_dense_fold {u : ℝ} (hu : 0 ≤ u) (sh rk : List ℕ) : ∀ (Us : List (ND ℝ)) {B' B M B'' : ND ℝ}
    {N k : ℕ}, rk.drop k = Us.map (fun U => U.dim 0) → NDNear ((1 + u) ^ N) B' B M →
    flFold (fun A (Ui : ND ℝ × ℕ) A' =>
      FlEinsum u [([.i, .j, .k], A.reshape [(sh.take Ui.2).prod, rk.getD Ui.2 0,
        (rk.drop (Ui.2 + 1)).prod]), ([.j, .l], Ui.1)] [.i, .l, .k] A') B' (Us.zipIdx k) B'' →
    NDNear ((1 + u) ^ (N + (Us.map fun U => U.dim 0).sum)) B''
      ((Us.zipIdx k).foldl (tuckerStep sh rk) B)
      (((Us.map ND.abs).zipIdx k).foldl (tuckerStep sh rk) M)
  | [], B', B, M, B'', N, k, _, h, hf => by
    cases hf; simpa using h
  | U :: Us, B', B, M, B'', N, k, hk, h, hf => by
    rw [List.zipIdx_cons] at hf
    obtain ⟨B1, h1, hf⟩ := hf
    have k1 := NDNear.einsum2 hu (one_le_pow_u hu N) le_rfl (h.reshape _) (NDNear.rfl' U) _ _ _ h1
    have hg : rk.getD k 0 = U.dim 0 := by
      have := congrArg (fun l => l.getD 0 0) hk
      simpa [List.getD_eq_getElem?_getD] using this
    have e : einsumTerms [([Lb.i, Lb.j, Lb.k], B.reshape [(sh.take k).prod, rk.getD k 0,
        (rk.drop (k + 1)).prod]), ([Lb.j, Lb.l], U)] [Lb.i, Lb.l, Lb.k] = U.dim 0 := by
      simp only [einsumTerms, ND.reshape_shape, hg]
      simp [lbSummed, lbDim, lbGet?]
    rw [e, pow_mul_comb] at k1
    have := tucker_dense_fold hu sh rk Us (k := k + 1) (by
      have := congrArg List.tail hk
      simpa [List.tail_drop] using this) k1 hf
    simpa [Nat.add_assoc, tuckerStep, ND.es_ijk_jl_ilk] using this

theorem Tucker.toNumpy_near {u : ℝ} (hu : 0 ≤ u) {X : Tucker ℝ} {B : ND ℝ}
    (hB : X.FlToNumpy u B) :
    NDNear ((1 + u) ^ X.rank.sum) B X.toNumpy X.abs.toNumpy := by
  obtain ⟨A, hA, rfl⟩ := hB
  have h0 : NDNear ((1 + u) ^ 0) X.core X.core X.core.abs := by simpa using NDNear.rfl' X.core
  have h1 := tucker_dense_fold hu X.shape X.rank X.factors (k := 0) (by simp [Tucker.rank]) h0 hA
  have h2 := h1.reshape X.shape
  rw [Nat.zero_add] at h2
  have e : X.abs.toNumpy = (((X.factors.map ND.abs).zipIdx 0).foldl (tuckerStep X.shape X.rank)
      X.core.abs).reshape X.shape := by
    show ND.reshape ((X.factors.map ND.abs).zipIdx.foldl (tuckerStep X.abs.shape X.abs.rank) X.core.abs)
      X.abs.shape = _
    rw [Tucker.abs_shape, Tucker.abs_rank]
  rw [e]
  exact h2

theorem Sparse.toNumpy_abs (X : Sparse ℝ) : NDNear 1 X.toNumpy X.toNumpy X.abs.toNumpy := by
  suffices H : ∀ (es : List (List ℕ × ℝ)) (A M : ND ℝ), NDNear 1 A A M →
      NDNear 1 (es.foldl (fun A e => A.setEntry e.1 e.2) A) (es.foldl (fun A e => A.setEntry e.1 e.2) A)
        ((es.map fun e => (e.1, |e.2|)).foldl (fun A e => A.setEntry e.1 e.2) M) from
    H X.entries _ _ (NDNear.zeros _ le_rfl)
  intro es
  induction es with
  | nil => intro A M h; exact h
  | cons e es ih =>
    intro A M h
    simp only [List.foldl_cons, List.map_cons]
    apply ih
    refine ⟨rfl, h.2.1, fun i => ?_⟩
    unfold ND.setEntry
    rw [h.2.1]
    simp only [ofFn_get']
    by_cases hi : InR A.shape i
    · simp only [hi, if_true]
      by_cases hj : i = e.1
      · simp only [hj, if_true]; exact Near.rfl' _
      · simp only [hj, if_false]; exact h.2.2 _
    · simp only [hi, if_false]; constructor <;> simp

/-- `to_numpy` of any format. -/
theorem Leaf.toNumpy_near {u : ℝ} (hu : 0 ≤ u) {X : Leaf ℝ} (h : X.Valid) {B : ND ℝ}
    (hB : X.FlToNumpy u B) : NDNear ((1 + u) ^ X.denseRounds) B X.toNumpy X.abs.toNumpy := by
  cases X with
  | dense X => cases hB; rw [show (Leaf.dense B).denseRounds = 0 from rfl, pow_zero]; exact NDNear.rfl' B
  | sparse X => cases hB; rw [show (Leaf.sparse X).denseRounds = 0 from rfl, pow_zero]; exact Sparse.toNumpy_abs X
  | tt X => exact TT.toNumpy_near hu h hB
  | cp X => exact CP.toNumpy_near hu h hB
  | tucker X => exact Tucker.toNumpy_near hu hB

theorem le_foldr_max {n : ℕ} : ∀ {l : List ℕ}, n ∈ l → n ≤ l.foldr max 0
  | a :: l, h => by
    rcases List.mem_cons.1 h with rfl | h
    · exact le_max_left _ _
    · exact (le_foldr_max h).trans (le_max_right _ _)

theorem tsum_fold_near {u : ℝ} (hu : 0 ≤ u) {N : ℕ} : ∀ (ts : List (Leaf ℝ)) {B' B M B'' : ND ℝ} {k : ℕ},
    (∀ t ∈ ts, t.Valid ∧ t.denseRounds ≤ N) → NDNear ((1 + u) ^ (N + k)) B' B M →
    flFold (fun s (t : Leaf ℝ) s' => ∃ A, t.FlToNumpy u A ∧ FlAdd u s A s') B' ts B'' →
    NDNear ((1 + u) ^ (N + (k + ts.length))) B'' (ts.foldl (fun s t => s.add t.toNumpy) B)
      ((ts.map Leaf.abs).foldl (fun s t => s.add t.toNumpy) M)
  | [], B', B, M, B'', k, _, h, hf => by cases hf; simpa using h
  | t :: ts, B', B, M, B'', k, ht, h, hf => by
    obtain ⟨B1, ⟨A, hA, h1⟩, hf⟩ := hf
    have k1 := (Leaf.toNumpy_near hu (ht t (by simp)).1 hA).mono
      (pow_le_pow_right₀ (by linarith) ((ht t (by simp)).2.trans (Nat.le_add_right N k)))
    have k2 := NDNear.add hu h k1 h1
    rw [← pow_succ', Nat.add_assoc] at k2
    have := tsum_fold_near hu ts (fun s hs => ht s (by simp [hs])) k2 hf
    simp only [List.length_cons, List.foldl_cons, List.map_cons]
    rw [show k + (ts.length + 1) = k + 1 + ts.length by omega]
    exact this

/-- `to_numpy` of a lazy sum. -/
theorem TSum.toNumpy_near {u : ℝ} (hu : 0 ≤ u) {X : TSum ℝ} (h : X.Valid) {B : ND ℝ}
    (hB : X.FlToNumpy u B) :
    NDNear ((1 + u) ^ (Tensor.sum X).denseRounds) B X.toNumpy X.abs.toNumpy := by
  have h0 : NDNear ((1 + u) ^ ((X.tensors.map Leaf.denseRounds).foldr max 0 + 0)) (ND.zeros X.shape)
      (ND.zeros X.shape) (ND.zeros X.shape) := NDNear.zeros _ (one_le_pow_u hu _)
  have := tsum_fold_near hu X.tensors (fun t ht =>
    ⟨(h t ht).1, le_foldr_max (List.mem_map_of_mem ht)⟩) h0 hB
  rw [Nat.zero_add] at this
  exact this

theorem Tensor.toNumpy_near {u : ℝ} (hu : 0 ≤ u) {X : Tensor ℝ} (h : X.Valid) {B : ND ℝ}
    (hB : X.FlToNumpy u B) : NDNear ((1 + u) ^ X.denseRounds) B X.toNumpy X.abs.toNumpy := by
  cases X with
  | leaf X => exact Leaf.toNumpy_near hu h hB
  | sum X => exact TSum.toNumpy_near hu h hB

end TTS
