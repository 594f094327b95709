import Verif.Proofs.MPO
import Verif.Proofs.TensorDot
import Verif.Props.Tensor

/-!
# C50, C51, C52: matrix product operators
-/

namespace TTS.Props

open Finset

variable {K : Type*} [CommSemiring K]

theorem mpo_lengths (A : MPO K) : A.inShape.length = A.cores.length ∧ A.outShape.length = A.cores.length := by
  simp [MPO.inShape, MPO.outShape]

/-- **C50, dense form.** `to_numpy` of an MPO has one input and one output axis per mode, in the order
`(in₁, out₁, in₂, out₂, …)`, and its entries are products of core slices. -/
theorem C50_dense (A : MPO K) (hA : A.Valid) :
    A.toNumpy.shape = interleave A.inShape A.outShape ∧
    ∀ j k, InR A.inShape j → InR A.outShape k → A.toNumpy.get (interleave j k) = A.entry j k := by
  refine ⟨MPO.toNumpy_shape hA, fun j k hj hk => MPO.toNumpy_get hA ?_ ?_⟩
  · rw [hj.length, (mpo_lengths A).1]
  · rw [hk.length, (mpo_lengths A).2]

theorem call_rank : ∀ {Ms Cs : List (ND K)} {r s a b : ℕ}, MPOChain r Ms s → TTChain a Cs b →
    (List.zipWith MPO.callCore Ms Cs).map (fun C => C.dim 0)
      = List.zipWith (· * ·) (Ms.map fun C => C.dim 0) (Cs.map fun C => C.dim 0)
  | [], _, _, _, _, _, _, _ => by simp
  | _ :: _, [], _, _, _, _, _, _ => by simp
  | M :: Ms, C :: Cs, r, s, a, b, ⟨n, m, t, hM, hMs⟩, ⟨n', u, hC, hCs⟩ => by
    simp only [List.zipWith_cons_cons, List.map_cons, call_rank hMs hCs, (dim_of_shape3 (callCore_shape hM hC)).1,
      (dim_of_shape4 hM).1, (dim_of_shape3 hC).1]

/-- **C50.** Applying an MPO to a tensor train of matching shape gives a tensor train of the output shape, whose ranks
are the products of the ranks, and whose entry at `k` is the sum over `j` of the MPO's entry at `(j₁, k₁, …)` times the
entry of the tensor train at `j`. -/
theorem C50 (A : MPO K) (X : TT K) (hA : A.Valid) (hX : X.Valid) (hs : X.shape = A.inShape) :
    (A.call X).Valid ∧ (A.call X).shape = A.outShape ∧
    (A.call X).rank = List.zipWith (· * ·) A.rank X.rank ∧
    ∀ k, InR A.outShape k → (A.call X).toNumpy.get k
      = sumIdx A.inShape fun j => A.toNumpy.get (interleave j k) * X.toNumpy.get j := by
  obtain ⟨h1, h2, h3⟩ := call_chain hA.2 hX.2 hs
  have hl : X.cores.length = A.cores.length := by
    have := congrArg List.length hs
    simpa [TT.shape, MPO.inShape] using this
  have hv : (A.call X).Valid := by
    refine ⟨?_, h1⟩
    intro h
    have := congrArg List.length h
    simp only [MPO.call, List.length_zipWith, List.length_nil] at this
    exact hA.1 (List.length_eq_zero_iff.1 (by omega))
  refine ⟨hv, h2, ?_, ?_⟩
  · obtain ⟨Ms⟩ := A
    obtain ⟨Cs⟩ := X
    match Ms, Cs, hA, hX with
    | M :: Ms, C :: Cs, ⟨_, _, _, _, _, hMs⟩, ⟨_, _, _, _, hCs⟩ =>
      exact call_rank hMs hCs
    | [], _, hA, _ => exact absurd rfl hA.1
    | _, [], _, hX => exact absurd rfl hX.1
  · intro k hk
    rw [TT.toNumpy_get hv]
    refine (h3 k 0 0 0 0 one_pos one_pos one_pos one_pos).trans ?_
    refine sumIdx_congr fun j hj => ?_
    rw [TT.toNumpy_get hX, (C50_dense A hA).2 j k hj hk]
    rfl

/-- **C50, vectorised form.** `to_tt` merges the two indices of each mode, `j * out + k`. -/
theorem C50_to_tt (A : MPO K) (hA : A.Valid) :
    A.toTT.Valid ∧ A.toTT.shape = A.shape ∧ A.toTT.rank = A.rank ∧
    ∀ j k, InR A.inShape j → InR A.outShape k →
      A.toTT.toNumpy.get (List.zipWith (· + ·) (List.zipWith (· * ·) j A.outShape) k) = A.toNumpy.get (interleave j k) := by
  obtain ⟨h1, h2⟩ := toTT_chain hA.2
  have hv : A.toTT.Valid := ⟨by simpa [MPO.toTT] using hA.1, h1⟩
  refine ⟨hv, ?_, ?_, ?_⟩
  · simp only [TT.shape, MPO.toTT, MPO.shape, MPO.inShape, MPO.outShape, List.map_map]
    refine List.ext_getElem (by simp) fun i h1 h2 => ?_
    simp [ND.dim]
  · simp only [TT.rank, MPO.toTT, MPO.rank, List.map_tail, List.map_map]
    congr 1
  · intro j k hj hk
    rw [TT.toNumpy_get hv, (C50_dense A hA).2 j k hj hk]
    exact h2 j k 0 0 hj hk one_pos

/-- An MPO `2 × 3 → 3 × 2` of rank 2. -/
def mpo1 : MPO ℤ := ⟨[ND.ofFn [1, 2, 3, 2] fun i => (i.getD 1 0 : ℤ) + 2 * i.getD 2 0 - i.getD 3 0,
  ND.ofFn [2, 3, 2, 1] fun i => (i.getD 0 0 : ℤ) - i.getD 1 0 + 3 * i.getD 2 0]⟩

/-- A tensor train of shape `2 × 3` and rank 2. -/
def mpoX : TT ℤ := ⟨[ND.ofFn [1, 2, 2] fun i => (i.getD 1 0 : ℤ) + i.getD 2 0,
  ND.ofFn [2, 3, 1] fun i => (i.getD 0 0 : ℤ) * 2 - i.getD 1 0]⟩

theorem mpo1_valid : mpo1.Valid := ⟨by simp [mpo1], 2, 3, 2, rfl, 3, 2, 1, rfl, rfl⟩
theorem mpoX_valid : mpoX.Valid := ⟨by simp [mpoX], 2, 2, rfl, 3, 1, rfl, rfl⟩

example : mpo1.Valid ∧ mpoX.Valid ∧ mpoX.shape = mpo1.inShape ∧ mpo1.outShape = [3, 2] ∧ (mpo1.call mpoX).rank = [4] ∧
    (mpo1.call mpoX).toNumpy.get [1, 1] = 93 :=
  ⟨mpo1_valid, mpoX_valid, rfl, rfl, rfl, by decide +kernel⟩

/-- **C51, identity.** `eye(shape)` is a well-formed square MPO, its matrix is the identity matrix, and it maps every
tensor train of that shape to itself (core by core). -/
theorem C51_eye (shape : List ℕ) (hne : shape ≠ []) :
    (MPO.eye shape : MPO K).Valid ∧ (MPO.eye shape : MPO K).inShape = shape ∧
    (MPO.eye shape : MPO K).outShape = shape ∧
    (∀ X : TT K, X.Valid → X.shape = shape → (MPO.eye shape).call X = X) ∧
    (∀ j k, InR shape j → InR shape k →
      (MPO.eye shape : MPO K).toNumpy.get (interleave j k) = if j = k then 1 else 0) := by
  have hv : (MPO.eye shape : MPO K).Valid := ⟨by simpa [MPO.eye] using hne, eye_chain shape⟩
  have hi : (MPO.eye shape : MPO K).inShape = shape := by
    simp only [MPO.inShape, MPO.eye, List.map_map]
    exact List.map_id' shape
  have ho : (MPO.eye shape : MPO K).outShape = shape := by
    simp only [MPO.outShape, MPO.eye, List.map_map]
    exact List.map_id' shape
  refine ⟨hv, hi, ho, ?_, ?_⟩
  · intro X hX hs
    have := eye_call hX.2
    rw [show coreShape X.cores = shape from hs] at this
    unfold MPO.call
    rw [this]
  · intro j k hj hk
    rw [(C50_dense _ hv).2 j k (by rwa [hi]) (by rwa [ho])]
    clear hv hi ho hne
    unfold MPO.entry
    induction shape generalizing j k with
    | nil =>
      match j, k, hj, hk with
      | [], [], _, _ => simp [MPO.eye, mpoVal]
    | cons n s ih =>
      match j, k, hj, hk with
      | x :: j, y :: k, hj, hk =>
        have e := eye_core (K := K) n
        have := ih j k hj.2 hk.2
        simp only [MPO.eye, List.map_cons] at this ⊢
        rw [mpoVal_cons e.1, sum_range_one, e.2 x y hj.1 hk.1, this]
        by_cases h : x = y <;> by_cases h' : j = k <;> simp [h, h']

/-- **C51, transpose.** `A.T` exchanges input and output: its matrix is the transposed matrix, it has the same ranks,
and transposing twice gives back the same cores. -/
theorem C51_T (A : MPO K) (hA : A.Valid) :
    A.T.Valid ∧ A.T.inShape = A.outShape ∧ A.T.outShape = A.inShape ∧ A.T.rank = A.rank ∧ A.T.T = A ∧
    ∀ j k, InR A.inShape j → InR A.outShape k →
      A.T.toNumpy.get (interleave k j) = A.toNumpy.get (interleave j k) := by
  obtain ⟨h1, h2, h3, h4⟩ := mpoT_chain hA.2
  have hv := MPO.T_valid hA
  refine ⟨hv, h2, h3, ?_, ?_, ?_⟩
  · simp only [MPO.rank, MPO.T, List.map_tail, List.map_map]
    congr 1
  · unfold MPO.T
    exact congrArg MPO.mk (mpoT_T hA.2)
  · intro j k hj hk
    rw [(C50_dense A hA).2 j k hj hk, (C50_dense A.T hv).2 k j (by rw [show A.T.inShape = A.outShape from h2]; exact hk)
      (by rw [show A.T.outShape = A.inShape from h3]; exact hj)]
    exact h4 k j 0 0

/-- **C51, adjoint.** `⟨A(x), y⟩ = ⟨x, A.T(y)⟩` for the inner products computed by `dot`. -/
theorem C51_adjoint (A : MPO K) (X Y : TT K) (hA : A.Valid) (hX : X.Valid) (hY : Y.Valid)
    (hsX : X.shape = A.inShape) (hsY : Y.shape = A.outShape) :
    (A.call X).dot Y = X.dot (A.T.call Y) := by
  obtain ⟨t1, t2, t3, _, _, t6⟩ := C51_T A hA
  obtain ⟨a1, a2, _, a4⟩ := C50 A X hA hX hsX
  obtain ⟨b1, b2, _, b4⟩ := C50 A.T Y t1 hY (by rw [t2, hsY])
  rw [TT.dot_eq a1 hY (by rw [a2, hsY]), TT.dot_eq hX b1 (by rw [b2, t3, hsX])]
  unfold innerND
  rw [TT.toNumpy_shape a1, TT.toNumpy_shape hX, a2, hsX]
  have e1 : (sumIdx A.outShape fun i => (A.call X).toNumpy.get i * Y.toNumpy.get i)
      = sumIdx A.outShape fun k => sumIdx A.inShape fun j =>
        A.toNumpy.get (interleave j k) * X.toNumpy.get j * Y.toNumpy.get k :=
    sumIdx_congr fun k hk => by rw [a4 k hk, sumIdx_mul]
  have e2 : (sumIdx A.inShape fun i => X.toNumpy.get i * (A.T.call Y).toNumpy.get i)
      = sumIdx A.inShape fun j => sumIdx A.outShape fun k =>
        A.toNumpy.get (interleave j k) * X.toNumpy.get j * Y.toNumpy.get k :=
    sumIdx_congr fun j hj => by
      rw [b4 j (by rwa [t3]), mul_sumIdx, t2]
      exact sumIdx_congr fun k hk => by rw [t6 j k hj hk]; ring
  rw [e1, e2, sumIdx_comm]

example : mpo1.T.inShape = [3, 2] ∧ mpo1.T.toNumpy.get [2, 1, 0, 2] = mpo1.toNumpy.get [1, 2, 2, 0] ∧
    mpo1.toNumpy.get [1, 2, 2, 0] = -14 := ⟨rfl, by decide +kernel, by decide +kernel⟩

end TTS.Props
