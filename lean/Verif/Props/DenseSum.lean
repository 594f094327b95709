import Verif.Props.Recover

/-!
# C33 and C39 for lazy sums of dense tensors of any order
-/

namespace TTS.Props

open TTS.Spec

variable {K : Type*} [Field K] [DecidableEq K]

/-- All summands are dense arrays. -/
def AllDense (X : Tensor K) : Prop := ∀ t ∈ X.summands, ∃ A : ND K, t = .dense A

omit [DecidableEq K] in
theorem streaming_spec_dense {env : Env K} {l r : DRM K} {X : Tensor K} (hX : X.Valid) (hl : l.AcceptsT X)
    (hr : r.AcceptsT X) (hlt : l.transpose = false) (hrt : r.transpose = true) (hx : AllDense X) :
    generalSketch env X (some l) r .streaming
      = .ok (sketchOf X.shape X.toNumpy.get (l.leftMats env) (r.rightMatsDense env) l.rank r.rank.reverse) := by
  obtain ⟨hl1, hr1⟩ := hl.ranks hr
  rw [streaming_sum hl hr hlt hrt, ← ofCores_sketchOf hl1 hr1]
  congr 1
  rw [ofCores_contOf (P := fun mu i => psiSpec X.shape X.toNumpy.get (l.leftMats env) (r.rightMatsDense env) mu
      (i.getD 0 0) (i.getD 1 0) (i.getD 2 0)) (O := fun mu i => omegaSpec X.shape X.toNumpy.get
        (l.leftMats env) (r.rightMatsDense env) mu (i.getD 0 0) (i.getD 1 0)) hl1 hr1]
  have hsh : ∀ t ∈ X.summands, t.shape = X.shape := fun t ht => by
    rw [(hl.each t ht).shape, ← hl.shape]
  have hget : ∀ i, X.toNumpy.get i = (X.summands.map fun t => t.toNumpy.get i).sum := by
    intro i
    cases X with
    | leaf X => simp [Tensor.summands, Tensor.toNumpy]
    | sum X => exact TSum.toNumpy_get hX i
  have hp : ∀ t ∈ X.summands, Parts env l r t.shape t
      (fun mu => ND.ofFn [l.rank.getD mu 0, r.rank.reverse.getD mu 0] fun i =>
        omegaSpec t.shape t.toNumpy.get (l.leftMats env) (r.rightMatsDense env) mu (i.getD 0 0) (i.getD 1 0))
      (fun mu => ND.ofFn (psiShape t.shape l.rank r.rank.reverse mu) fun i =>
        psiSpec t.shape t.toNumpy.get (l.leftMats env) (r.rightMatsDense env) mu (i.getD 0 0) (i.getD 1 0) (i.getD 2 0)) := by
    intro t ht
    obtain ⟨A, rfl⟩ := hx t ht
    exact parts_of (env := env) (hl.each _ ht) (hr.each _ ht) hlt hrt trivial _ (right_spec_dense env (hr.each _ ht) hrt)
      (rightMatsDense_last env (by rw [(hr.each _ ht).shape]))
  have hO : ∀ t ∈ X.summands, ∀ mu < X.shape.length - 1, oSk env l r t mu
      = ND.ofFn [l.rank.getD mu 0, r.rank.reverse.getD mu 0] fun i =>
        omegaSpec X.shape t.toNumpy.get (l.leftMats env) (r.rightMatsDense env) mu (i.getD 0 0) (i.getD 1 0) := by
    intro t ht mu hmu
    have := (hp t ht).om mu (by rw [hsh t ht]; exact hmu)
    rw [hsh t ht] at this
    exact this
  have hP : ∀ t ∈ X.summands, ∀ mu < X.shape.length, pSk env l r t mu
      = ND.ofFn (psiShape X.shape l.rank r.rank.reverse mu) fun i =>
        psiSpec X.shape t.toNumpy.get (l.leftMats env) (r.rightMatsDense env) mu
          (i.getD 0 0) (i.getD 1 0) (i.getD 2 0) := by
    intro t ht mu hmu
    have := (hp t ht).psi mu (by rw [hsh t ht]; exact hmu)
    unfold pSk
    rw [this, hsh t ht]
  have sum_lin : ∀ (sh : List ℕ) (F : Leaf K → List ℕ → K),
      (X.summands.map fun t => sumIdx sh (F t)).sum = sumIdx sh fun p => (X.summands.map fun t => F t p).sum :=
    fun sh F => (sumIdx_list_sum sh _ fun i t => F t i).symm
  unfold contSum
  refine contOf_congr (fun mu i hmu hi => ?_) fun mu i hmu hi => ?_
  · rw [List.map_congr_left fun t ht => by rw [hP t ht mu hmu, ND.ofFn_get hi]]
    unfold psiSpec
    rw [sum_lin]
    refine sumIdx_congr fun p _ => ?_
    rw [sum_lin]
    refine sumIdx_congr fun q _ => ?_
    rw [hget, List.sum_map_mul_right, List.sum_map_mul_left]
  · rw [List.map_congr_left fun t ht => by rw [hO t ht mu hmu, ND.ofFn_get hi]]
    unfold omegaSpec
    rw [sum_lin]
    refine sumIdx_congr fun p _ => ?_
    rw [sum_lin]
    refine sumIdx_congr fun q _ => ?_
    rw [hget, List.sum_map_mul_right, List.sum_map_mul_left]

/-- **C33, sums of dense tensors.** The streaming sketch of a lazy sum of dense tensors of any order is the defining contraction
of the total, with the right rows looked up in the unreversed order (as for one dense tensor). -/
theorem C33_dense_sum (env : Env K) (X : Tensor K) (lrank rrank : RankArg) (kw : SketchKw K) (S : Sketched K)
    (hkw : kw.Good) (hX : X.Valid) (hne : X.NonEmpty) (hd : 2 ≤ X.shape.length) (hx : AllDense X)
    (h : streamSketch env X lrank rrank kw = .ok S) :
    S.sketch = sketchOf X.shape X.toNumpy.get (S.left.leftMats env) (S.right.rightMatsDense env)
      S.leftRank S.rightRank := by
  obtain ⟨hS, -⟩ := stream_inv hkw hX hne hd h
  have e := streaming_spec_dense (env := env) hX hS.accL hS.accR hS.dirL hS.dirR hx
  rw [streaming_sum hS.accL hS.accR hS.dirL hS.dirR] at e
  injection e with e
  rw [hS.sketch, e]
  rfl

/-- **C39, sums of dense tensors.** A sketch of a lazy sum of dense tensors of any order is converted to the total exactly when
every `Omega` has the rank of the unfolding. -/
theorem C39_dense_sum (env : Env K) (hE : LstsqContract env) (X : Tensor K) (lrank rrank : RankArg) (kw : SketchKw K)
    (S : Sketched K) (hkw : kw.Good) (hX : X.Valid) (hne : X.NonEmpty) (hd : 2 ≤ X.shape.length) (hx : AllDense X)
    (h : streamSketch env X lrank rrank kw = .ok S)
    (hrank : ∀ mu < X.shape.length - 1,
      ((S.sketch.omega.getD mu (ND.zeros [])).asMatrix (S.leftRank.getD mu 0) (S.rightRank.getD mu 0)).rank
        = (X.toNumpy.unfolding (mu + 1)).rank) :
    (∀ dir, dir ≠ Direction.other → ∃ cs, S.cCores env dir = .ok cs ∧ (TT.mk cs).Valid ∧
      (TT.mk cs).toNumpy = X.toNumpy) ∧
    ∃ Y, S.toTT env = .ok Y ∧ Y.Valid ∧ Y.toNumpy = X.toNumpy := by
  have e := C33_dense_sum env X lrank rrank kw S hkw hX hne hd hx h
  obtain ⟨-, -, -, -, hl, hr⟩ := C38_shapes env X lrank rrank kw S hkw hX hne hd h
  obtain ⟨hS, -⟩ := stream_inv hkw hX hne hd h
  have hsh : X.shape = S.right.shape := hS.accR.shape
  have hnp : X.toNumpy.shape = X.shape := Tensor.toNumpy_shape hX
  rw [← hnp] at e hrank hd hl hr hsh
  rw [e] at hrank
  have key' : ∀ dir, dir ≠ Direction.other → ∃ cs, S.cCores env dir = .ok cs ∧ (TT.mk cs).Valid ∧
      (TT.mk cs).toNumpy = X.toNumpy := by
    intro dir hdir
    unfold Sketched.cCores
    rw [e]
    exact recover_sketch hE (by omega) hl hr (fun a => rfl)
      (fun b => by rw [rightMatsDense_last env (by rw [hsh])]) hrank dir hdir
  refine ⟨key', ?_⟩
  obtain ⟨cs, h1, h2, h3⟩ := key' .auto (by decide)
  exact ⟨⟨cs⟩, by rw [Sketched.toTT, h1]; rfl, h2, h3⟩

/-- a dense array with one nonzero entry -/
def a7 : ND ℚ := ND.ofFn [2, 3, 2] fun i => if i = [1, 2, 0] then 3 else 0

/-- a lazy sum of two dense arrays with three modes -/
def x7d : Tensor ℚ := .sum ⟨[2, 3, 2], [.dense a7, .dense a7]⟩

theorem s7d : ∃ S, streamSketch env7 x7d (.int 1) (.int 2) { seed := some 3 } = .ok S ∧
    (S.leftRank = [1, 1] ∧ S.rightRank = [2, 2]) ∧
    (S.sketch.omega.getD 0 (ND.zeros [])).get [0, 0] ≠ 0 ∧ (S.sketch.omega.getD 1 (ND.zeros [])).get [0, 0] ≠ 0 := by
  refine ⟨_, rfl, ⟨rfl, rfl⟩, ?_⟩
  decide +kernel

/-- `C39_dense_sum` applies to it and gives the total back. -/
example : ∃ S, streamSketch env7 x7d (.int 1) (.int 2) { seed := some 3 } = .ok S ∧
    ∃ Y, S.toTT env7 = .ok Y ∧ Y.Valid ∧ Y.toNumpy = x7d.toNumpy := by
  obtain ⟨S, h1, ⟨hl, hr⟩, h2, h3⟩ := s7d
  have hv : x7d.Valid := by
    intro t ht
    simp only [List.mem_cons, List.not_mem_nil, or_false, or_self] at ht
    subst ht
    exact ⟨trivial, rfl⟩
  have hne : x7d.NonEmpty := by simp [x7d, Tensor.NonEmpty]
  have hx : AllDense x7d := by
    intro t ht
    simp only [x7d, Tensor.summands, List.mem_cons, List.not_mem_nil, or_false, or_self] at ht
    exact ⟨a7, ht⟩
  have hE : LstsqContract env7 := lstsqChoice_contract rfl
  have hkw : ({ seed := some 3 } : SketchKw ℚ).Good := SketchKw.good_none _ _ _
  refine ⟨S, h1, (C39_dense_sum env7 hE x7d _ _ _ S hkw hv hne (by decide) hx h1 fun mu hmu => ?_).2⟩
  have e := C33_dense_sum env7 x7d _ _ _ S hkw hv hne (by decide) hx h1
  have hsh := Tensor.toNumpy_shape hv
  have hmu' : mu < 2 := hmu
  have hle : ((S.sketch.omega.getD mu (ND.zeros [])).asMatrix (S.leftRank.getD mu 0) (S.rightRank.getD mu 0)).rank
      ≤ (x7d.toNumpy.unfolding (mu + 1)).rank := by
    rw [e, ← hsh]
    exact omega_rank_le (by rw [hsh]; exact hmu)
  refine le_antisymm hle (le_trans (unfolding_single (i0 := [1, 2, 0]) (by rw [hsh]; decide) ?_ _) ?_)
  · intro i
    have hg : ∀ i, x7d.toNumpy.get i = a7.get i + a7.get i := by
      intro i
      have := TSum.toNumpy_get (X := ⟨[2, 3, 2], [.dense a7, .dense a7]⟩) hv i
      simpa [x7d, Tensor.toNumpy, Leaf.toNumpy] using this
    rw [hg, hg]
    by_cases hi : i = [1, 2, 0]
    · simp [hi]
    · rw [if_neg hi]
      have : a7.get i = 0 := by
        by_cases hr : InR [2, 3, 2] i
        · rw [a7, ND.ofFn_get hr, if_neg hi]
        · exact ND.supp a7 i hr
      rw [this, add_zero]
  · rw [hl, hr]
    obtain rfl | rfl : mu = 0 ∨ mu = 1 := by omega
    · exact rank_ge_one _ (0 : Fin 1) (0 : Fin 2) h2
    · exact rank_ge_one _ (0 : Fin 1) (0 : Fin 2) h3

end TTS.Props
