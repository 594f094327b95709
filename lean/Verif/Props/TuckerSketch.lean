import Verif.Proofs.TuckerSketch
import Verif.Proofs.TuckerFull
import Verif.Props.Recover

/-!
# C33 for Tucker tensors and for lazy sums of any formats, with any number of modes
-/

namespace TTS.Props

open TTS Finset

variable {K : Type*} [CommRing K]

theorem generalSketch_tucker {env : Env K} {l r : DRM K} {X : Tucker K} (hl : l.Accepts (.tucker X))
    (hr : r.Accepts (.tucker X)) (hlt : l.transpose = false) (hrt : r.transpose = true) :
    generalSketch env (.leaf (.tucker X)) (some l) r .streaming
      = .ok (X.sketchOf (X.absorbLeft (l.leftMats env)) ((X.absorbRight (r.rightMats env)).misread X.rank)
          l.rank r.rank.reverse) := by
  obtain ⟨h1, h2⟩ := accepts_ranks hl hr
  rw [generalSketch_leaf (parts_tucker hl hr hlt hrt)]
  congr 1
  have h1' : l.rank.length = X.shape.length - 1 := h1
  have h2' : r.rank.reverse.length = X.shape.length - 1 := h2
  show Container.ofCores ((List.range X.shape.length).map _) ((List.range (X.shape.length - 1)).map _) = _
  rw [ofCores_eq h1' h2' (by simp) (fun mu hmu => by rw [getD_map_range _ _ _ _ hmu]; rfl)]
  unfold Tucker.sketchOf
  congr 1
  refine List.map_congr_left fun mu hmu => ?_
  rw [psiShape_eq h2' (List.mem_range.1 hmu)]

/-- **C33, Tucker tensors with any number of modes.**  The sketch is the defining contraction of the core with the
DRM matrices to which the factors are applied; on the right the rows are looked up in the unreversed row-major
order of the core index (`Mats.misread`). -/
theorem C33_tucker (env : Env K) (X : Tucker K) (lrank rrank : RankArg) (kw : SketchKw K) (S : Sketched K)
    (hkw : kw.Good) (hX : X.Valid) (hd : 2 ≤ X.shape.length)
    (h : streamSketch env (.leaf (.tucker X)) lrank rrank kw = .ok S) :
    S.sketch = X.sketchOf (X.absorbLeft (S.left.leftMats env))
      ((X.absorbRight (S.right.rightMats env)).misread X.rank) S.leftRank S.rightRank := by
  obtain ⟨hS, -⟩ := stream_inv (X := .leaf (.tucker X)) hkw hX trivial hd h
  have e := generalSketch_tucker (env := env) hS.accL.leaf hS.accR.leaf hS.dirL hS.dirR
  rw [streaming_sum hS.accL hS.accR hS.dirL hS.dirR] at e
  injection e with e
  rw [hS.sketch, e]
  rfl

theorem generalSketch_dense {env : Env K} {l r : DRM K} {X : ND K} (hl : l.Accepts (.dense X))
    (hr : r.Accepts (.dense X)) (hlt : l.transpose = false) (hrt : r.transpose = true) :
    generalSketch env (.leaf (.dense X)) (some l) r .streaming
      = .ok (sketchOf X.shape X.get (l.leftMats env) (r.rightMatsDense env) l.rank r.rank.reverse) := by
  have e := generalSketch_leaf (parts_of (env := env) hl hr hlt hrt trivial _
    (right_spec_dense env hr hrt) (rightMatsDense_last env (by rw [hr.shape])))
  rw [ofCores_sketchOf (accepts_ranks hl hr).1 (accepts_ranks hl hr).2] at e
  exact e

theorem generalSketch_any {env : Env K} {l r : DRM K} {t : Leaf K} (hl : l.Accepts t) (hr : r.Accepts t)
    (hlt : l.transpose = false) (hrt : r.transpose = true) (hd : t.Distinct) :
    generalSketch env (.leaf t) (some l) r .streaming = .ok (t.sketchOf env l r l.rank r.rank.reverse) := by
  cases t with
  | dense X => exact generalSketch_dense hl hr hlt hrt
  | tucker X => exact generalSketch_tucker hl hr hlt hrt
  | sparse X => exact streaming_leaf hl hr hlt hrt hd trivial
  | tt X => exact streaming_leaf hl hr hlt hrt hd trivial
  | cp X => exact streaming_leaf hl hr hlt hrt hd trivial

/-- **C33, all formats and lazy sums of them, any number of modes.**  The sketch is the entrywise sum over the
summands of the contraction of each of them (`Leaf.sketchOf`). -/
theorem C33_all (env : Env K) (X : Tensor K) (lrank rrank : RankArg) (kw : SketchKw K) (S : Sketched K)
    (hkw : kw.Good) (hX : X.Valid) (hne : X.NonEmpty) (hd : 2 ≤ X.shape.length) (hdist : X.Distinct)
    (h : streamSketch env X lrank rrank kw = .ok S) :
    S.sketch.HasShape X.shape S.leftRank S.rightRank ∧
    S.sketch.IsSumOf (X.summands.map (Leaf.sketchOf env S.left S.right S.leftRank S.rightRank)) := by
  obtain ⟨hS, -⟩ := stream_inv hkw hX hne hd h
  obtain ⟨C, c, h1, h2, h3, h4, h5⟩ := C35_sum env X S.left S.right hS.accL hS.accR hS.dirL hS.dirR
  rw [streaming_sum hS.accL hS.accR hS.dirL hS.dirR] at h1
  injection h1 with h1
  have e : X.summands.map c = X.summands.map (Leaf.sketchOf env S.left S.right S.leftRank S.rightRank) := by
    refine List.map_congr_left fun t ht => ?_
    have e1 := h2 t ht
    rw [generalSketch_any (hS.accL.each t ht) (hS.accR.each t ht) hS.dirL hS.dirR (Tensor.distinct_mem hdist t ht)] at e1
    injection e1 with e1
    rw [← e1]; rfl
  rw [hS.sketch, h1, ← e]
  exact ⟨h3, h5⟩

/-- the tensor `e3` of C34 stored as a Tucker tensor with identity factors -/
def t3 : Tucker ℤ := ⟨[eyeND 1, eyeND 2, eyeND 2], e3.toNumpy⟩

theorem t3_valid : t3.Valid := by
  refine ⟨?_, rfl⟩
  intro C hC
  simp only [t3, List.mem_cons, List.not_mem_nil, or_false] at hC
  rcases hC with rfl | rfl | rfl
  · exact ⟨1, 1, rfl⟩
  · exact ⟨2, 2, rfl⟩
  · exact ⟨2, 2, rfl⟩

theorem t3_toNumpy : t3.toNumpy = e3.toNumpy := by
  refine ND.ext' rfl fun i hi => ?_
  have hi' : InR [1, 2, 2] i := hi
  match i, hi' with
  | [a, b, c], hi' =>
    obtain ⟨h1, h2, h3, _⟩ := hi'
    interval_cases a <;> interval_cases b <;> interval_cases c <;> decide

/-- `C33_success` and `C33_tucker` apply to a Tucker tensor with three modes. -/
example : ∃ S, streamSketch env0 (.leaf (.tucker t3)) (.int 1) (.seq [3, 2]) { seed := some 7 } = .ok S ∧
    S.sketch = t3.sketchOf (t3.absorbLeft (S.left.leftMats env0))
      ((t3.absorbRight (S.right.rightMats env0)).misread t3.rank) S.leftRank S.rightRank := by
  obtain ⟨S, h⟩ := C33_success env0 (.leaf (.tucker t3)) (.int 1) (.seq [3, 2]) (some 7) none none t3_valid
    (by decide) (by decide) (by decide) (.inl (by decide)) (by decide)
    (fun t _ D hD => supports_tt D (by rcases hD with h | h <;> exact h) t)
  exact ⟨S, h, C33_tucker env0 t3 _ _ _ S (SketchKw.good_none _ _ _) t3_valid (by decide) h⟩

/-- Finding: with three modes the same tensor stored as a Tucker tensor and sparsely has different sketches (here
with tensor train DRMs, the only ones that accept Tucker tensors). -/
theorem C34_tucker_differs : ∃ (env : Env ℤ) (l r : DRM ℤ) (X Y : Tensor ℤ) (A B : Container ℤ),
    X.Valid ∧ Y.Valid ∧ X.Distinct ∧ X.toNumpy = Y.toNumpy ∧
    DRM.new env .tensorTrain (.seq [1, 1]) [1, 2, 2] false (some 7) = .ok l ∧
    DRM.new env .tensorTrain (.seq [2, 2]) [1, 2, 2] true (some 8) = .ok r ∧
    generalSketch env X (some l) r .streaming = .ok A ∧ generalSketch env Y (some l) r .streaming = .ok B ∧
    (A.psi.getD 0 (ND.zeros [])).get [0, 0, 0] ≠ (B.psi.getD 0 (ND.zeros [])).get [0, 0, 0] := by
  refine ⟨env0, _, _, .leaf (.sparse e3), .leaf (.tucker t3), _, _, ?_, t3_valid, ?_, t3_toNumpy.symm, rfl, rfl, rfl,
    rfl, ?_⟩
  · intro e he
    simp only [e3, List.mem_cons, List.not_mem_nil, or_false] at he
    subst he; simp [e3]
  · simp [Tensor.Distinct, Leaf.Distinct, Sparse.Distinct, e3]
  · decide

/-! ## C39 -/

section
variable {K : Type*} [Field K]

/-- **C39, Tucker tensors** with any number of modes whose factor matrices have full row rank: if every `Omega[mu]`
has the rank of the corresponding unfolding, the tensor is recovered exactly. -/
theorem C39_tucker (env : Env K) (hE : LstsqContract env) (X : Tucker K) (lrank rrank : RankArg) (kw : SketchKw K)
    (S : Sketched K) (hkw : kw.Good) (hX : X.Valid) (hd : 2 ≤ X.shape.length)
    (hf : ∀ k < X.factors.length,
      ((X.factors.getD k (ND.zeros [])).asMatrix (X.rank.getD k 0) (X.shape.getD k 0)).rank = X.rank.getD k 0)
    (h : streamSketch env (.leaf (.tucker X)) lrank rrank kw = .ok S)
    (hrank : ∀ mu < X.shape.length - 1,
      ((S.sketch.omega.getD mu (ND.zeros [])).asMatrix (S.leftRank.getD mu 0) (S.rightRank.getD mu 0)).rank
        = (X.toNumpy.unfolding (mu + 1)).rank) :
    (∀ dir, dir ≠ Direction.other → ∃ cs, S.cCores env dir = .ok cs ∧ (TT.mk cs).Valid ∧
      (TT.mk cs).toNumpy = X.toNumpy) ∧
    ∃ Y, S.toTT env = .ok Y ∧ Y.Valid ∧ Y.toNumpy = X.toNumpy := by
  obtain ⟨-, -, -, -, hl, hr⟩ := C38_shapes env (.leaf (.tucker X)) lrank rrank kw S hkw hX trivial hd h
  obtain ⟨hS, -⟩ := stream_inv (X := .leaf (.tucker X)) hkw hX trivial hd h
  obtain ⟨R, hR1, hR⟩ := right_tucker_full (env := env) hS.accR.leaf hS.dirR hf
  have e := generalSketch_leaf (parts_of (env := env) hS.accL.leaf hS.accR.leaf hS.dirL hS.dirR trivial R hR hR1)
  rw [ofCores_sketchOf (accepts_ranks hS.accL.leaf hS.accR.leaf).1 (accepts_ranks hS.accL.leaf hS.accR.leaf).2,
    streaming_sum hS.accL hS.accR hS.dirL hS.dirR] at e
  injection e with e
  have e : S.sketch = sketchOf X.shape X.toNumpy.get (S.left.leftMats env) R S.leftRank S.rightRank := by
    rw [hS.sketch, e]; rfl
  have hsh : X.toNumpy.shape = X.shape := Tensor.toNumpy_shape (X := .leaf (.tucker X)) hX
  have hl' : S.leftRank.length = X.shape.length - 1 := hl
  have hr' : S.rightRank.length = X.shape.length - 1 := hr
  rw [← hsh] at e hl' hr' hd hR1
  rw [← hsh, e] at hrank
  have key' : ∀ dir, dir ≠ Direction.other → ∃ cs, S.cCores env dir = .ok cs ∧ (TT.mk cs).Valid ∧
      (TT.mk cs).toNumpy = X.toNumpy := by
    intro dir hdir
    unfold Sketched.cCores
    rw [e]
    exact recover_sketch hE (by omega) hl' hr' (fun a => rfl) (fun b => by rw [hR1]) hrank dir hdir
  refine ⟨key', ?_⟩
  obtain ⟨cs, h1, h2, h3⟩ := key' .auto (by decide)
  exact ⟨⟨cs⟩, by rw [Sketched.toTT, h1]; rfl, h2, h3⟩

end

/-- the tensor `x7` of C39 as a Tucker tensor -/
def t7 : Tucker ℚ := ⟨[eyeND 2, eyeND 3, eyeND 2], x7.toNumpy⟩

theorem t7_valid : t7.Valid := by
  refine ⟨?_, rfl⟩
  intro C hC
  simp only [t7, List.mem_cons, List.not_mem_nil, or_false] at hC
  rcases hC with rfl | rfl | rfl
  · exact ⟨2, 2, rfl⟩
  · exact ⟨3, 3, rfl⟩
  · exact ⟨2, 2, rfl⟩

theorem eye_rank (n : ℕ) : ((eyeND n : ND ℚ).asMatrix n n).rank = n := by
  have : (eyeND n : ND ℚ).asMatrix n n = 1 := by
    ext i j
    rw [Matrix.one_apply]
    show (eyeND n).get [i, j] = _
    rw [eyeND_get i.2 j.2]
    simp [Fin.ext_iff]
  rw [this, Matrix.rank_one]; simp

theorem t7_full : ∀ k < t7.factors.length,
    ((t7.factors.getD k (ND.zeros [])).asMatrix (t7.rank.getD k 0) (t7.shape.getD k 0)).rank = t7.rank.getD k 0 := by
  intro k hk
  have hk' : k < 3 := hk
  interval_cases k
  · exact eye_rank 2
  · exact eye_rank 3
  · exact eye_rank 2

theorem t7_toNumpy : t7.toNumpy = x7.toNumpy := by
  refine ND.ext' rfl fun i hi => ?_
  have hi' : InR [2, 3, 2] i := hi
  have hi2 : InR t7.rank i := hi
  exact tuckerCore_get t7_valid hi2

theorem x7_valid39 : x7.Valid := by
  intro e he
  simp only [x7, List.mem_cons, List.not_mem_nil, or_false] at he
  subst he; simp [x7]

/-- The sketch of `t7` has nonzero Omega matrices, whose rank is therefore that (one) of the unfoldings: `C39_tucker`
applies to a Tucker tensor with three modes. -/
example : ∃ S, streamSketch env7 (.leaf (.tucker t7)) (.int 1) (.int 2) { seed := some 3 } = .ok S ∧
    ∃ Y, S.toTT env7 = .ok Y ∧ Y.Valid ∧ Y.toNumpy = x7.toNumpy := by
  obtain ⟨S, h, ⟨hl, hr⟩, h2, h3⟩ : ∃ S, streamSketch env7 (.leaf (.tucker t7)) (.int 1) (.int 2) { seed := some 3 } = .ok S ∧
    (S.leftRank = [1, 1] ∧ S.rightRank = [2, 2]) ∧
    (S.sketch.omega.getD 0 (ND.zeros [])).get [0, 0] ≠ 0 ∧ (S.sketch.omega.getD 1 (ND.zeros [])).get [0, 0] ≠ 0 := by
    refine ⟨_, rfl, ⟨rfl, rfl⟩, ?_⟩
    decide +kernel
  refine ⟨S, h, t7_toNumpy ▸ (C39_tucker env7 (lstsqChoice_contract rfl) t7 _ _ _ S (SketchKw.good_none _ _ _) t7_valid
    (by decide) t7_full h fun mu hmu => ?_).2⟩
  have hmu' : mu < 2 := hmu
  obtain ⟨hS, -⟩ := stream_inv (X := .leaf (.tucker t7)) (SketchKw.good_none _ _ _) t7_valid trivial (by decide) h
  obtain ⟨R, hR1, hR⟩ := right_tucker_full (env := env7) hS.accR.leaf hS.dirR t7_full
  have e := generalSketch_leaf (parts_of (env := env7) hS.accL.leaf hS.accR.leaf hS.dirL hS.dirR trivial R hR hR1)
  rw [ofCores_sketchOf (accepts_ranks hS.accL.leaf hS.accR.leaf).1 (accepts_ranks hS.accL.leaf hS.accR.leaf).2,
    streaming_sum hS.accL hS.accR hS.dirL hS.dirR] at e
  injection e with e
  have e : S.sketch = sketchOf t7.toNumpy.shape t7.toNumpy.get (S.left.leftMats env7) R S.leftRank S.rightRank := by
    rw [hS.sketch, e]; rfl
  have hle : ((S.sketch.omega.getD mu (ND.zeros [])).asMatrix (S.leftRank.getD mu 0) (S.rightRank.getD mu 0)).rank
      ≤ (t7.toNumpy.unfolding (mu + 1)).rank := by
    rw [e]
    exact omega_rank_le (A := t7.toNumpy) (by exact hmu)
  have hdist : x7.Distinct := by simp [Sparse.Distinct, x7]
  refine le_antisymm hle (le_trans (unfolding_single (i0 := [1, 2, 0]) (by show InR [2, 3, 2] _; decide) ?_ _) ?_)
  · intro i
    rw [t7_toNumpy]
    rw [Sparse.toNumpy_get x7_valid39 hdist, Sparse.toNumpy_get x7_valid39 hdist]
    simp only [sparseEntry, x7, List.map_cons, List.map_nil, List.sum_cons, List.sum_nil, add_zero, if_true]
    by_cases hi : i = [1, 2, 0]
    · simp [hi]
    · rw [if_neg hi, if_neg (fun h => hi h.symm)]
  · rw [hl, hr]
    obtain rfl | rfl : mu = 0 ∨ mu = 1 := by omega
    · exact rank_ge_one _ (0 : Fin 1) (0 : Fin 2) h2
    · exact rank_ge_one _ (0 : Fin 1) (0 : Fin 2) h3

end TTS.Props
