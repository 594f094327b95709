import Verif.Proofs.Scale

/-!
# Properties C33-C38, C43, C46, C48, C59, C60: the streaming sketch

The matrices of a DRM (`DRM.leftMats`, `DRM.rightMats`), the defining contraction (`sketchOf`) and the
conditions under which a DRM and a tensor fit together (`DRM.AcceptsT`) are in `Spec/Sketch.lean`.  `env` stands for
the outcomes of all external routines; the theorems hold for every one of them.
-/

namespace TTS.Props

open TTS Finset

variable {K : Type*} [CommRing K]

/-! ## C33 -/

/-- **C33.** A successful `stream_sketch` of a tensor (or lazy sum) made of sparse tensors without repeated
indices, tensor trains and CP tensors (and of dense or Tucker tensors with at most two modes) returns exactly the
contraction of the dense array with the matrices of its two DRMs. -/
theorem C33_streaming (env : Env K) (X : Tensor K) (lrank rrank : RankArg) (kw : SketchKw K) (S : Sketched K)
    (hkw : kw.Good) (hX : X.Valid) (hne : X.NonEmpty) (hd : 2 ≤ X.shape.length) (hdist : X.Distinct)
    (hx : ∀ t ∈ X.summands, t.RightExact)
    (h : streamSketch env X lrank rrank kw = .ok S) :
    S.sketch = sketchOf X.shape X.toNumpy.get (S.left.leftMats env) (S.right.rightMats env)
      S.leftRank S.rightRank := by
  obtain ⟨hS, -⟩ := stream_inv hkw hX hne hd h
  have e := streaming_spec (env := env) hX hS.accL hS.accR hS.dirL hS.dirR hdist hx
  rw [streaming_sum hS.accL hS.accR hS.dirL hS.dirR] at e
  injection e with e
  rw [hS.sketch, e]
  rfl

/-- The call succeeds: any tensor with at least two modes, rank arguments that fit it and are strictly ordered, a
seed below `2^32` (or none) and DRM classes that have a method for every format in the tensor. -/
theorem C33_success (env : Env K) (X : Tensor K) (lrank rrank : RankArg) (seed : Option ℕ)
    (lt rt : Option DRMKind) (hX : X.Valid) (hd : 2 ≤ X.shape.length)
    (hl : (ranksOf lrank X.shape.length).length = X.shape.length - 1)
    (hr : (ranksOf rrank X.shape.length).length = X.shape.length - 1)
    (ho : RanksOrdered (X.shape.length - 1) (ranksOf lrank X.shape.length) (ranksOf rrank X.shape.length))
    (hseed : seed.getD 0 < 2 ^ 32)
    (hsup : ∀ t ∈ X.summands, ∀ D : DRMData K, (D.kind = lt.getD (rt.getD .tensorTrain) ∨
      D.kind = rt.getD (lt.getD .tensorTrain)) → D.supports t = true) :
    ∃ S, streamSketch env X lrank rrank { seed := seed, leftType := lt, rightType := rt } = .ok S :=
  stream_fresh lrank rrank seed lt rt hX hd hl hr ho hseed hsup

theorem supports_tt (D : DRMData K) (h : D.kind = .tensorTrain) (t : Leaf K) : D.supports t = true := by
  cases D <;> simp [DRMData.kind] at h
  cases t <;> rfl

/-- Both theorems apply to a lazy sum of all five formats (default DRM class). -/
example : ∃ S, streamSketch env0 (.sum sSum) (.int 2) (.seq [3]) { seed := some 7 } = .ok S ∧
    S.sketch = sketchOf [2, 3] sSum.toNumpy.get (S.left.leftMats env0) (S.right.rightMats env0)
      S.leftRank S.rightRank := by
  obtain ⟨S, h⟩ := C33_success env0 (.sum sSum) (.int 2) (.seq [3]) (some 7) none none sSum_valid
    (by decide) (by decide) (by decide) (.inl (by decide)) (by decide)
    (fun t _ D hD => supports_tt D (by rcases hD with h | h <;> exact h) t)
  refine ⟨S, h, C33_streaming env0 (.sum sSum) _ _ _ S (SketchKw.good_none _ _ _) sSum_valid (by simp [Tensor.NonEmpty, sSum])
    (by decide) sSum_distinct ?_ h⟩
  intro t ht
  simp only [Tensor.summands, sSum, List.mem_cons, List.not_mem_nil, or_false] at ht
  rcases ht with rfl | rfl | rfl | rfl | rfl <;> first | trivial | exact le_refl 2

/-- **C33, dense arrays.** For them the right DRM acts through the row-major position of the *unreversed* index
(`DRM.rightMatsDense`). -/
theorem C33_dense (env : Env K) (X : ND K) (lrank rrank : RankArg) (kw : SketchKw K) (S : Sketched K)
    (hkw : kw.Good) (hd : 2 ≤ X.shape.length)
    (h : streamSketch env (.leaf (.dense X)) lrank rrank kw = .ok S) :
    S.sketch = sketchOf X.shape X.get (S.left.leftMats env) (S.right.rightMatsDense env)
      S.leftRank S.rightRank := by
  obtain ⟨hS, -⟩ := stream_inv (X := .leaf (.dense X)) hkw trivial trivial hd h
  have hl := hS.accL.leaf
  have hr := hS.accR.leaf
  have e := generalSketch_leaf (parts_of (env := env) hl hr hS.dirL hS.dirR trivial _
    (right_spec_dense env hr hS.dirR) (rightMatsDense_last env (by rw [hr.shape])))
  rw [ofCores_sketchOf (accepts_ranks hl hr).1 (accepts_ranks hl hr).2,
    streaming_sum hS.accL hS.accR hS.dirL hS.dirR] at e
  injection e with e
  rw [hS.sketch, e]
  rfl

/-! ## C34 -/

/-- **C34.** The sketch depends on the tensor only: two tensors with the same dense array have the same streaming
sketch under the same DRMs.  Formats: sparse (no repeated indices), TT, CP, sums of those; dense and Tucker
tensors with at most two modes. -/
theorem C34_format (env : Env K) (X Y : Tensor K) (l r : DRM K) (hX : X.Valid) (hY : Y.Valid)
    (hlX : l.AcceptsT X) (hrX : r.AcceptsT X) (hlY : l.AcceptsT Y) (hrY : r.AcceptsT Y)
    (hlt : l.transpose = false) (hrt : r.transpose = true) (dX : X.Distinct) (dY : Y.Distinct)
    (xX : ∀ t ∈ X.summands, t.RightExact) (xY : ∀ t ∈ Y.summands, t.RightExact)
    (h : X.toNumpy = Y.toNumpy) :
    ∃ C, generalSketch env X (some l) r .streaming = .ok C ∧
      generalSketch env Y (some l) r .streaming = .ok C := by
  have hs : X.shape = Y.shape := by rw [hlX.shape, hlY.shape]
  refine ⟨_, streaming_spec hX hlX hrX hlt hrt dX xX, ?_⟩
  rw [streaming_spec hY hlY hrY hlt hrt dY xY, h, hs]

/-- a tensor with three modes, one stored entry -/
def e3 : Sparse ℤ := ⟨[1, 2, 2], [([0, 0, 1], 1)]⟩

/-- an environment in which the entries of a dense Gaussian matrix are `0, 1, 2, ...` -/
def envN : Env ℤ := { env0 with normalStream := fun _ k => k }

/-- Finding: with three modes the same tensor stored densely and sparsely has different sketches. -/
theorem C34_dense_differs : ∃ (env : Env ℤ) (l r : DRM ℤ) (X Y : Tensor ℤ) (A B : Container ℤ),
    X.Valid ∧ Y.Valid ∧ X.Distinct ∧ X.toNumpy = Y.toNumpy ∧
    DRM.new env .denseGaussian (.seq [1, 1]) [1, 2, 2] false (some 7) = .ok l ∧
    DRM.new env .denseGaussian (.seq [2, 2]) [1, 2, 2] true (some 8) = .ok r ∧
    generalSketch env X (some l) r .streaming = .ok A ∧ generalSketch env Y (some l) r .streaming = .ok B ∧
    (A.psi.getD 0 (ND.zeros [])).get [0, 0, 0] ≠ (B.psi.getD 0 (ND.zeros [])).get [0, 0, 0] := by
  refine ⟨envN, _, _, .leaf (.sparse e3), .leaf (.dense e3.toNumpy), _, _, ?_, trivial, ?_, rfl, rfl, rfl, rfl, rfl, ?_⟩
  · intro e he
    simp only [e3, List.mem_cons, List.not_mem_nil, or_false] at he
    subst he; simp [e3]
  · simp [Tensor.Distinct, Leaf.Distinct, Sparse.Distinct, e3]
  · decide

/-! ## C35 -/

theorem contSum_hasShape {env : Env K} {l r : DRM K} {sh : List ℕ} {ts : List (Leaf K)}
    (hr : r.rank.reverse.length = sh.length - 1) :
    (contSum env l r sh ts).HasShape sh l.rank r.rank.reverse := by
  refine ⟨rfl, rfl, rfl, by simp [contSum, contOf], by simp [contSum, contOf], fun mu hmu => ?_, fun mu hmu => ?_⟩
  · show ND.shape (((List.range sh.length).map _).getD mu _) = _
    rw [getD_map_range _ _ _ _ hmu]
    exact psiShape_eq hr hmu
  · show ND.shape (((List.range (sh.length - 1)).map _).getD mu _) = _
    rw [getD_map_range _ _ _ _ hmu]
    rfl

theorem contSum_psi {env : Env K} {l r : DRM K} {sh : List ℕ} {ts : List (Leaf K)} {mu : ℕ}
    (hmu : mu < sh.length) : (contSum env l r sh ts).psi.getD mu (ND.zeros [])
      = ND.ofFn (psiShape sh l.rank r.rank.reverse mu) fun i => (ts.map fun t => (pSk env l r t mu).get i).sum :=
  getD_map_range _ _ _ _ hmu

theorem contSum_omega {env : Env K} {l r : DRM K} {sh : List ℕ} {ts : List (Leaf K)} {mu : ℕ}
    (hmu : mu < sh.length - 1) : (contSum env l r sh ts).omega.getD mu (ND.zeros [])
      = ND.ofFn [l.rank.getD mu 0, r.rank.reverse.getD mu 0] fun i => (ts.map fun t => (oSk env l r t mu).get i).sum :=
  getD_map_range _ _ _ _ hmu

theorem ofFn_get_eq (sh i : List ℕ) (f : List ℕ → K) :
    (ND.ofFn sh f).get i = if InR sh i then f i else 0 := by
  by_cases h : InR sh i
  · rw [if_pos h, ND.ofFn_get h]
  · rw [if_neg h]; exact ND.supp _ _ h

theorem contSum_isSumOf {env : Env K} {l r : DRM K} {sh : List ℕ} (ts : List (Leaf K)) :
    (contSum env l r sh ts).IsSumOf (ts.map fun t => contSum env l r sh [t]) := by
  refine ⟨fun mu hmu i => ?_, fun mu hmu i => ?_⟩
  · have hmu' : mu < sh.length := by simpa [contSum, contOf] using hmu
    rw [contSum_psi hmu', List.map_map, ofFn_get_eq]
    have : ∀ t, ((fun c : Container K => (c.psi.getD mu (ND.zeros [])).get i) ∘ fun t => contSum env l r sh [t]) t
        = if InR (psiShape sh l.rank r.rank.reverse mu) i then (pSk env l r t mu).get i else 0 := by
      intro t
      show ((contSum env l r sh [t]).psi.getD mu (ND.zeros [])).get i = _
      rw [contSum_psi hmu', ofFn_get_eq]; simp
    rw [List.map_congr_left fun t _ => this t]
    split <;> simp
  · have hmu' : mu < sh.length - 1 := by simpa [contSum, contOf] using hmu
    rw [contSum_omega hmu', List.map_map, ofFn_get_eq]
    have : ∀ t, ((fun c : Container K => (c.omega.getD mu (ND.zeros [])).get i) ∘ fun t => contSum env l r sh [t]) t
        = if InR [l.rank.getD mu 0, r.rank.reverse.getD mu 0] i then (oSk env l r t mu).get i else 0 := by
      intro t
      show ((contSum env l r sh [t]).omega.getD mu (ND.zeros [])).get i = _
      rw [contSum_omega hmu', ofFn_get_eq]; simp
    rw [List.map_congr_left fun t _ => this t]
    split <;> simp

/-- **C35, sums.** The streaming sketch of a lazy sum (any formats, any number of summands) is the entrywise sum
of the streaming sketches of the summands, and has the same array shapes. -/
theorem C35_sum (env : Env K) (X : Tensor K) (l r : DRM K) (hl : l.AcceptsT X) (hr : r.AcceptsT X)
    (hlt : l.transpose = false) (hrt : r.transpose = true) :
    ∃ (C : Container K) (c : Leaf K → Container K),
      generalSketch env X (some l) r .streaming = .ok C ∧
      (∀ t ∈ X.summands, generalSketch env (.leaf t) (some l) r .streaming = .ok (c t)) ∧
      C.HasShape X.shape l.rank r.rank.reverse ∧
      (∀ t ∈ X.summands, (c t).HasShape X.shape l.rank r.rank.reverse) ∧
      C.IsSumOf (X.summands.map c) := by
  have hrk := (hl.ranks hr).2
  refine ⟨_, fun t => contSum env l r X.shape [t], streaming_sum hl hr hlt hrt, fun t ht => ?_,
    contSum_hasShape hrk, fun t _ => contSum_hasShape hrk, contSum_isSumOf _⟩
  rw [streaming_sum (hl.each t ht).tensor (hr.each t ht).tensor hlt hrt]
  have : t.shape = X.shape := by rw [(hl.each t ht).shape, hl.shape]
  show Except.ok (contSum env l r t.shape [t]) = _
  rw [this]

/-- **C35, order.** Permuting the summands does not change the sketch. -/
theorem C35_perm (env : Env K) (X Y : Tensor K) (l r : DRM K) (hlX : l.AcceptsT X) (hrX : r.AcceptsT X)
    (hlt : l.transpose = false) (hrt : r.transpose = true) (hs : Y.shape = X.shape)
    (hp : Y.summands.Perm X.summands) :
    generalSketch env Y (some l) r .streaming = generalSketch env X (some l) r .streaming := by
  have hlY : l.AcceptsT Y := ⟨hlX.wf, hs.trans hlX.shape, fun t ht => hlX.each t (hp.mem_iff.1 ht)⟩
  have hrY : r.AcceptsT Y := ⟨hrX.wf, hs.trans hrX.shape, fun t ht => hrX.each t (hp.mem_iff.1 ht)⟩
  rw [streaming_sum hlX hrX hlt hrt, streaming_sum hlY hrY hlt hrt, hs, contSum_perm hp]

theorem add_summands {X Y Z : Tensor K} (h : X.add Y = .ok Z) :
    Z.summands = X.summands ++ Y.summands := by
  cases X <;> cases Y
  all_goals
    simp only [Tensor.add] at h
    rename_i A B
  · injection h with h; subst h; rfl
  · injection h with h; subst h; rfl
  · cases hA : A.tensors with
    | nil =>
      rw [hA] at h
      injection h with h; subst h
      simp [Tensor.summands, hA]
    | cons t ts =>
      rw [hA] at h
      injection h with h; subst h
      simp [Tensor.summands, hA]
  · cases hA : A.tensors ++ B.tensors with
    | nil =>
      rw [hA] at h
      cases h
    | cons t ts =>
      rw [hA] at h
      injection h with h; subst h
      simp [Tensor.summands, hA]

/-- **C35, grouping.** The sketch of `X + Y` is the `SketchContainer` sum of the two sketches. -/
theorem C35_group (env : Env K) (X Y Z : Tensor K) (l r : DRM K) (hX : X.Valid) (hY : Y.Valid)
    (nX : X.NonEmpty) (hlX : l.AcceptsT X) (hrX : r.AcceptsT X) (hlY : l.AcceptsT Y) (hrY : r.AcceptsT Y)
    (hlt : l.transpose = false) (hrt : r.transpose = true) (hZ : X.add Y = .ok Z) :
    ∃ A B, generalSketch env X (some l) r .streaming = .ok A ∧
      generalSketch env Y (some l) r .streaming = .ok B ∧
      generalSketch env Z (some l) r .streaming = .ok (A.add B) ∧ A.Sums B (A.add B) := by
  have hs : Y.shape = X.shape := by rw [hlX.shape, hlY.shape]
  have hsum := add_summands hZ
  obtain ⟨Z', e, -, -, hsZ, -⟩ := add_ok hX hY nX hs
  rw [hZ] at e
  injection e with e
  subst e
  have hlZ : l.AcceptsT Z := ⟨hlX.wf, hsZ.trans hlX.shape, fun t ht => by
    rw [hsum, List.mem_append] at ht
    exact ht.elim (hlX.each t) (hlY.each t)⟩
  have hrZ : r.AcceptsT Z := ⟨hrX.wf, hsZ.trans hrX.shape, fun t ht => by
    rw [hsum, List.mem_append] at ht
    exact ht.elim (hrX.each t) (hrY.each t)⟩
  obtain ⟨h1, h2⟩ := hlX.ranks hrX
  refine ⟨_, _, streaming_sum hlX hrX hlt hrt, streaming_sum hlY hrY hlt hrt, ?_, ?_⟩
  · rw [streaming_sum hlZ hrZ hlt hrt, hs, contSum_append _ _ h1 h2, hsZ, hsum]
  · rw [hs, contSum_append _ _ h1 h2]
    refine ⟨rfl, rfl, rfl, by simp [contSum, contOf], by simp [contSum, contOf], fun mu => ?_, fun mu => ?_,
      fun mu i => ?_, fun mu i => ?_⟩
    · by_cases hmu : mu < X.shape.length
      · rw [contSum_psi hmu, contSum_psi hmu]; rfl
      · rw [List.getD_eq_default _ _ (by simpa [contSum, contOf] using hmu),
          List.getD_eq_default _ _ (by simpa [contSum, contOf] using hmu)]
    · by_cases hmu : mu < X.shape.length - 1
      · rw [contSum_omega hmu, contSum_omega hmu]; rfl
      · rw [List.getD_eq_default _ _ (by simpa [contSum, contOf] using hmu),
          List.getD_eq_default _ _ (by simpa [contSum, contOf] using hmu)]
    · by_cases hmu : mu < X.shape.length
      · rw [contSum_psi hmu, contSum_psi hmu, contSum_psi hmu, ofFn_get_eq, ofFn_get_eq, ofFn_get_eq]
        split <;> simp
      · rw [List.getD_eq_default _ _ (by simpa [contSum, contOf] using hmu),
          List.getD_eq_default _ _ (by simpa [contSum, contOf] using hmu),
          List.getD_eq_default _ _ (by simpa [contSum, contOf] using hmu), ND.zeros_get, add_zero]
    · by_cases hmu : mu < X.shape.length - 1
      · rw [contSum_omega hmu, contSum_omega hmu, contSum_omega hmu, ofFn_get_eq, ofFn_get_eq, ofFn_get_eq]
        split <;> simp
      · rw [List.getD_eq_default _ _ (by simpa [contSum, contOf] using hmu),
          List.getD_eq_default _ _ (by simpa [contSum, contOf] using hmu),
          List.getD_eq_default _ _ (by simpa [contSum, contOf] using hmu), ND.zeros_get, add_zero]

theorem mul_summands {X Y : Tensor K} {c : K} (h : X.mul c = .ok Y) :
    Y.summands = X.summands.map fun t => t.mul c := by
  cases X with
  | leaf X => injection h with h; subst h; rfl
  | sum X =>
    unfold Tensor.mul TSum.mul at h
    cases hA : X.tensors with
    | nil => simp only [hA] at h; cases h
    | cons t ts =>
      simp only [hA, List.map_cons, TSum.mk?, Except.map] at h
      injection h with h; subst h
      simp [Tensor.summands, hA]

/-- **C35, scaling.** The sketch of `X * c` is the sketch of `X` with every entry multiplied by `c`. -/
theorem C35_scale (env : Env K) (X Y : Tensor K) (c : K) (l r : DRM K) (hX : X.Valid) (nX : X.NonEmpty)
    (hl : l.AcceptsT X) (hr : r.AcceptsT X) (hlt : l.transpose = false) (hrt : r.transpose = true)
    (hY : X.mul c = .ok Y) :
    ∃ A B, generalSketch env X (some l) r .streaming = .ok A ∧
      generalSketch env Y (some l) r .streaming = .ok B ∧
      B.HasShape A.shape A.leftRank A.rightRank ∧ A.IsScaled B c := by
  obtain ⟨Y', e, -, -, hsY, -⟩ := C07_mul X hX nX c
  rw [hY] at e
  injection e with e
  subst e
  have hsum := mul_summands hY
  have hlY : l.AcceptsT Y := ⟨hl.wf, hsY.trans hl.shape, fun t ht => by
    rw [hsum, List.mem_map] at ht
    obtain ⟨u, hu, rfl⟩ := ht
    exact Leaf.mul_accepts (hl.each u hu) c⟩
  have hrY : r.AcceptsT Y := ⟨hr.wf, hsY.trans hr.shape, fun t ht => by
    rw [hsum, List.mem_map] at ht
    obtain ⟨u, hu, rfl⟩ := ht
    exact Leaf.mul_accepts (hr.each u hu) c⟩
  have hsh : ∀ t ∈ X.summands, t.shape = X.shape := fun t ht => (Tensor.valid_summands hX t ht).2
  have key := fun t ht => leaf_scale (env := env) (hl.each t ht) (hr.each t ht) hlt hrt c
  refine ⟨_, _, streaming_sum hl hr hlt hrt, streaming_sum hlY hrY hlt hrt, ?_, ?_, ?_⟩
  · rw [hsY]; exact contSum_hasShape (hl.ranks hr).2
  · intro mu i
    rw [hsY, hsum]
    by_cases hmu : mu < X.shape.length
    · rw [contSum_psi hmu, contSum_psi hmu, ofFn_get_eq, ofFn_get_eq]
      split
      · rw [List.map_map, ← List.sum_map_mul_right]
        congr 1
        refine List.map_congr_left fun t ht => ?_
        show (pSk env l r (t.mul c) mu).get i = _
        rw [(key t ht).2 mu (by rw [hsh t ht]; exact hmu), ND.smul_get]
      · rw [zero_mul]
    · rw [List.getD_eq_default _ _ (by simpa [contSum, contOf] using hmu),
        List.getD_eq_default _ _ (by simpa [contSum, contOf] using hmu), ND.zeros_get, zero_mul]
  · intro mu i
    rw [hsY, hsum]
    by_cases hmu : mu < X.shape.length - 1
    · rw [contSum_omega hmu, contSum_omega hmu, ofFn_get_eq, ofFn_get_eq]
      split
      · rw [List.map_map, ← List.sum_map_mul_right]
        congr 1
        refine List.map_congr_left fun t ht => ?_
        show (oSk env l r (t.mul c) mu).get i = _
        rw [(key t ht).1 mu (by rw [hsh t ht]; exact hmu), ND.smul_get]
      · rw [zero_mul]
    · rw [List.getD_eq_default _ _ (by simpa [contSum, contOf] using hmu),
        List.getD_eq_default _ _ (by simpa [contSum, contOf] using hmu), ND.zeros_get, zero_mul]

/-! ## C36, C37 -/

/-- one update keeps the invariant -/
theorem streamed_add {env : Env K} {X Y : Tensor K} {S : Sketched K} (hS : Streamed env X S) (hX : X.Valid)
    (nX : X.NonEmpty) (hY : Y.Valid) (hs : Y.shape = X.shape)
    (hsup : ∀ t ∈ Y.summands, S.left.data.supports t = true ∧ S.right.data.supports t = true) :
    ∃ Z S', X.add Y = .ok Z ∧ Z.Valid ∧ Z.NonEmpty ∧ Z.shape = X.shape ∧ S.add env Y = .ok S' ∧
      S'.left = S.left ∧ S'.right = S.right ∧ Streamed env Z S' := by
  obtain ⟨Z, hZ, vZ, nZ, hsZ, -⟩ := add_ok hX hY nX hs
  have hsum := add_summands hZ
  have hlY := acceptsT_of hS.accL.wf hS.fullL hY (hs.trans hS.accL.shape) fun t ht => (hsup t ht).1
  have hrY := acceptsT_of hS.accR.wf hS.fullR hY (hs.trans hS.accR.shape) fun t ht => (hsup t ht).2
  obtain ⟨h1, h2⟩ := hS.accL.ranks hS.accR
  have e := stream_supplied (env := env) none none none hlY hrY hS.dirL hS.dirR (by rw [hs]; exact hS.ordered)
  refine ⟨Z, ⟨contSum env S.left S.right X.shape (X.summands ++ Y.summands), S.left, S.right⟩, hZ, vZ, nZ, hsZ,
    ?_, rfl, rfl, ?_⟩
  · unfold Sketched.add Sketched.leftRank Sketched.rightRank
    rw [e]
    show Except.ok _ = Except.ok _
    rw [hS.sketch, hs, contSum_append _ _ h1 h2]
  · refine ⟨⟨hS.accL.wf, hsZ.trans hS.accL.shape, fun t ht => ?_⟩,
      ⟨hS.accR.wf, hsZ.trans hS.accR.shape, fun t ht => ?_⟩, hS.fullL, hS.fullR, hS.dirL, hS.dirR, ?_, ?_⟩
    · rw [hsum, List.mem_append] at ht
      exact ht.elim (hS.accL.each t) (hlY.each t)
    · rw [hsum, List.mem_append] at ht
      exact ht.elim (hS.accR.each t) (hrY.each t)
    · rw [hsZ]; exact hS.ordered
    · rw [hsZ, hsum]

/-- sketching with the DRMs of an existing sketch -/
theorem streamed_again {env : Env K} {X : Tensor K} {S : Sketched K} (hS : Streamed env X S) :
    streamSketch env X (.seq S.leftRank) (.seq S.rightRank) { left := some S.left, right := some S.right }
      = .ok S := by
  have e := stream_supplied (env := env) none none none hS.accL hS.accR hS.dirL hS.dirR hS.ordered
  unfold Sketched.leftRank Sketched.rightRank
  rw [e, ← hS.sketch]

/-- **C36.** `stream_sketch(X, ..) + Y` is exactly what `stream_sketch(X + Y, ..)` with the same DRMs returns
(Psi cores, Omega matrices, shapes, ranks and DRMs). -/
theorem C36_update (env : Env K) (X Y : Tensor K) (lrank rrank : RankArg) (kw : SketchKw K) (S : Sketched K)
    (hkw : kw.Good) (hX : X.Valid) (nX : X.NonEmpty) (hd : 2 ≤ X.shape.length)
    (h : streamSketch env X lrank rrank kw = .ok S) (hY : Y.Valid) (hs : Y.shape = X.shape)
    (hsup : ∀ t ∈ Y.summands, S.left.data.supports t = true ∧ S.right.data.supports t = true) :
    ∃ Z S', X.add Y = .ok Z ∧ S.add env Y = .ok S' ∧ S'.left = S.left ∧ S'.right = S.right ∧
      streamSketch env Z (.seq S.leftRank) (.seq S.rightRank) { left := some S.left, right := some S.right }
        = .ok S' := by
  obtain ⟨hS, -⟩ := stream_inv hkw hX nX hd h
  obtain ⟨Z, S', h1, h2, h3, h4, h5, h6, h7, h8⟩ := streamed_add hS hX nX hY hs hsup
  refine ⟨Z, S', h1, h5, h6, h7, ?_⟩
  have := streamed_again h8
  unfold Sketched.leftRank Sketched.rightRank at this ⊢
  rwa [h6, h7] at this

theorem streamed_history {env : Env K} : ∀ (Ys : List (Tensor K)) {X : Tensor K} {S : Sketched K},
    Streamed env X S → X.Valid → X.NonEmpty →
    (∀ Y ∈ Ys, Y.Valid ∧ Y.shape = X.shape ∧
      ∀ t ∈ Y.summands, S.left.data.supports t = true ∧ S.right.data.supports t = true) →
    ∃ Z S', Ys.foldlM (fun A Y => A.add Y) X = .ok Z ∧ Ys.foldlM (fun A Y => A.add env Y) S = .ok S' ∧
      S'.left = S.left ∧ S'.right = S.right ∧ Streamed env Z S' ∧ Z.shape = X.shape ∧
      Z.summands = X.summands ++ Ys.flatMap Tensor.summands
  | [], X, S, hS, _, _, _ => ⟨X, S, rfl, rfl, rfl, rfl, hS, rfl, by simp⟩
  | Y :: Ys, X, S, hS, hX, nX, h => by
    obtain ⟨hY, hs, hsup⟩ := h Y (by simp)
    obtain ⟨Z, S', h1, h2, h3, h4, h5, h6, h7, h8⟩ := streamed_add hS hX nX hY hs hsup
    obtain ⟨Z', S'', k1, k2, k3, k4, k5, k6, k7⟩ := streamed_history Ys h8 h2 h3 (by
      intro Y' hY'
      rw [h4, h6, h7]
      exact h Y' (by simp [hY']))
    refine ⟨Z', S'', ?_, ?_, k3.trans h6, k4.trans h7, k5, k6.trans h4, ?_⟩
    · rw [List.foldlM_cons, h1]; exact k1
    · rw [List.foldlM_cons, h5]; exact k2
    · rw [k7, add_summands h1]; simp

/-- **C37.** Any history of updates: `stt + Y_1 + ... + Y_k` is exactly the sketch (with the same DRMs) of
`X + Y_1 + ... + Y_k`, and any other order of the updates gives the same object. -/
theorem C37_history (env : Env K) (X : Tensor K) (Ys : List (Tensor K)) (lrank rrank : RankArg)
    (kw : SketchKw K) (S : Sketched K) (hkw : kw.Good) (hX : X.Valid) (nX : X.NonEmpty)
    (hd : 2 ≤ X.shape.length) (h : streamSketch env X lrank rrank kw = .ok S)
    (hY : ∀ Y ∈ Ys, Y.Valid ∧ Y.shape = X.shape ∧
      ∀ t ∈ Y.summands, S.left.data.supports t = true ∧ S.right.data.supports t = true) :
    ∃ Z S', Ys.foldlM (fun A Y => A.add Y) X = .ok Z ∧ Ys.foldlM (fun A Y => A.add env Y) S = .ok S' ∧
      streamSketch env Z (.seq S.leftRank) (.seq S.rightRank) { left := some S.left, right := some S.right }
        = .ok S' ∧
      ∀ Ys' : List (Tensor K), Ys'.Perm Ys → Ys'.foldlM (fun A Y => A.add env Y) S = .ok S' := by
  obtain ⟨hS, -⟩ := stream_inv hkw hX nX hd h
  obtain ⟨Z, S', h1, h2, h3, h4, h5, h6, h7⟩ := streamed_history Ys hS hX nX hY
  refine ⟨Z, S', h1, h2, ?_, fun Ys' hp => ?_⟩
  · have := streamed_again h5
    unfold Sketched.leftRank Sketched.rightRank at this ⊢
    rwa [h3, h4] at this
  · obtain ⟨Z', S'', k1, k2, k3, k4, k5, k6, k7⟩ := streamed_history Ys' hS hX nX
      (fun Y hY' => hY Y (hp.mem_iff.1 hY'))
    rw [k2]
    congr 1
    have e1 := h5.sketch
    have e2 := k5.sketch
    rw [h3, h4, h6] at e1
    rw [k3, k4, k6] at e2
    have : S''.sketch = S'.sketch := by
      rw [e1, e2]
      exact contSum_perm (by rw [k7, h7]; exact (hp.flatMap_right _).append_left _)
    obtain ⟨a, b, c⟩ := S'
    obtain ⟨a', b', c'⟩ := S''
    simp only at this h3 h4 k3 k4
    subst this h3 h4
    rw [k3, k4]

/-! ## C38 -/

/-- **C38.** Shapes and ranks of a streaming sketch, for every format: `Psi[mu]` has shape
`(left_rank[mu-1], n[mu], right_rank[mu])`, `Omega[mu]` has shape `(left_rank[mu], right_rank[mu])` (`1` at the
ends), and the recorded ranks are those of the DRMs. -/
theorem C38_shapes (env : Env K) (X : Tensor K) (lrank rrank : RankArg) (kw : SketchKw K) (S : Sketched K)
    (hkw : kw.Good) (hX : X.Valid) (nX : X.NonEmpty) (hd : 2 ≤ X.shape.length)
    (h : streamSketch env X lrank rrank kw = .ok S) :
    S.sketch.HasShape X.shape S.leftRank S.rightRank ∧ S.leftRank = S.left.rank ∧
      S.rightRank = S.right.rank.reverse ∧ S.shape = X.shape ∧
      S.leftRank.length = X.shape.length - 1 ∧ S.rightRank.length = X.shape.length - 1 := by
  obtain ⟨hS, -⟩ := stream_inv hkw hX nX hd h
  have hr := hS.accL.ranks hS.accR
  have := contSum_hasShape (env := env) (l := S.left) (ts := X.summands) hr.2
  rw [← hS.sketch] at this
  exact ⟨this, rfl, rfl, this.shape, hr.1, hr.2⟩

/-! ## C43 (streaming part) -/

/-- **C43.** `stream_sketch` raises `ValueError` when the requested ranks are not strictly ordered (in the same
direction on all bonds). -/
theorem C43_stream_reject (env : Env K) (X : Tensor K) (lrank rrank : RankArg) (kw : SketchKw K)
    (hd : 2 ≤ X.shape.length)
    (hl : (ranksOf lrank X.shape.length).length = X.shape.length - 1)
    (hr : (ranksOf rrank X.shape.length).length = X.shape.length - 1)
    (ho : ¬ RanksOrdered (X.shape.length - 1) (ranksOf lrank X.shape.length) (ranksOf rrank X.shape.length)) :
    streamSketch env X lrank rrank kw = .error .valueError := by
  unfold streamSketch
  rw [ranksLess_eq hd hr hl, ranksLess_eq hd hl hr]
  simp only [Except.andThen]
  rw [if_pos]
  rw [decide_eq_false_iff_not, decide_eq_false_iff_not]
  exact ⟨fun h => ho (.inr h), fun h => ho (.inl h)⟩

/-- **C43.** An accepted call had strictly ordered rank arguments, uses strictly ordered ranks after trimming, and
any DRM that was supplied has the requested rank and is used unchanged. -/
theorem C43_stream_accept (env : Env K) (X : Tensor K) (lrank rrank : RankArg) (kw : SketchKw K) (S : Sketched K)
    (hkw : kw.Good) (hX : X.Valid) (nX : X.NonEmpty) (hd : 2 ≤ X.shape.length)
    (h : streamSketch env X lrank rrank kw = .ok S) :
    RanksOrdered (X.shape.length - 1) (ranksOf lrank X.shape.length) (ranksOf rrank X.shape.length) ∧
    RanksOrdered (X.shape.length - 1) S.leftRank S.rightRank ∧
    (∀ D, kw.left = some D → S.left = D ∧ lrank = .seq D.rank) ∧
    (∀ D, kw.right = some D → S.right = D ∧ rrank = .seq D.rank.reverse) := by
  obtain ⟨hS, -, -, h1, h2, h3, -⟩ := stream_inv hkw hX nX hd h
  exact ⟨h1, hS.ordered, h2, h3⟩

/-- **C43.** A supplied left DRM of another rank is rejected. -/
theorem C43_left_mismatch (env : Env K) (X : Tensor K) (lrank rrank : RankArg) (kw : SketchKw K) (D : DRM K)
    (hD : kw.left = some D) (hne : lrank ≠ .seq D.rank) :
    streamSketch env X lrank rrank kw = .error .valueError := by
  unfold streamSketch
  have e : ∀ a b e, ranksLess a b = .error e → e = .valueError := by
    intro a b e h
    unfold ranksLess at h
    split at h <;> try cases h
    split_ifs at h
    injection h with h; exact h.symm
  cases h1 : ranksLess rrank lrank with
  | error x => rw [e _ _ _ h1]; rfl
  | ok lb =>
    cases h2 : ranksLess lrank rrank with
    | error x => rw [e _ _ _ h2]; rfl
    | ok rb =>
      have hl : ∀ sh b s, leftDRM env sh lrank b s kw = .error .valueError := by
        intro sh b s
        simp only [leftDRM, hD]
        rw [if_neg (fun h => hne h.symm)]
      simp only [Except.andThen, hl]
      split_ifs <;> rfl

/-- **C43.** A supplied right DRM of another rank is rejected. -/
theorem C43_right_mismatch (env : Env K) (X : Tensor K) (lrank rrank : RankArg) (kw : SketchKw K) (S : Sketched K)
    (D : DRM K) (hD : kw.right = some D) (hne : rrank ≠ .seq D.rank.reverse) :
    streamSketch env X lrank rrank kw ≠ .ok S := by
  intro h
  unfold streamSketch at h
  obtain ⟨lb, hlb, h⟩ := andThen_ok h
  obtain ⟨rb, hrb, h⟩ := andThen_ok h
  split at h
  · cases h
  obtain ⟨l, hl, h⟩ := andThen_ok h
  obtain ⟨r, hr, h⟩ := andThen_ok h
  unfold rightDRM at hr
  rw [hD] at hr
  simp only [] at hr
  rw [if_neg (fun h => hne h.symm)] at hr
  cases hr

example : streamSketch env0 (.leaf (.dense (ND.zeros [2, 3, 4]))) (.seq [2, 3]) (.seq [3, 2]) = .error .valueError :=
  C43_stream_reject env0 _ _ _ _ (by decide) (by decide) (by decide) (by unfold RanksOrdered; decide)

/-! ## C46 -/

/-- **C46** fails: scaling a `SketchedTensorTrain` by any number always raises `UnboundLocalError`; so do negation
and (for a nonzero divisor) division of the underlying container, and subtraction of containers. -/
theorem C46_raises (S : Sketched K) (c : K) (A B : Container K) :
    S.mul c = .error .unboundLocalError ∧ S.neg = .error .unboundLocalError ∧
    A.mul c = .error .unboundLocalError ∧ A.neg = .error .unboundLocalError ∧
    A.sub B = .error .unboundLocalError :=
  ⟨rfl, rfl, rfl, rfl, rfl⟩

/-! ## C48 -/

/-- Two environments that agree on everything but the entropy: the seed drawn when none is given and the state of
a generator seeded with `None`. -/
def SameButEntropy (env env' : Env K) : Prop :=
  env'.ndtri = env.ndtri ∧ (∀ s n, env'.seedOffset (some s) n = env.seedOffset (some s) n) ∧
  env'.normalStream = env.normalStream ∧ env'.genState = env.genState ∧
  env'.randomNormal = env.randomNormal ∧ env'.invSqrt = env.invSqrt ∧ env'.lstsq = env.lstsq ∧
  env'.qr = env.qr ∧ env'.strHash = env.strHash

theorem new_entropy {env env' : Env K} (h : SameButEntropy env env') (kind : DRMKind) (rank : RankArg)
    (shape : List ℕ) (t : Bool) (s : ℕ) (kw : DRMKw) :
    DRM.new env' kind rank shape t (some s) kw = DRM.new env kind rank shape t (some s) kw := by
  obtain ⟨h1, h2, h3, h4, h5, h6, h7, h8, h9⟩ := h
  have hb : DRMBase.new env' rank shape t (some s) kw = DRMBase.new env rank shape t (some s) kw := rfl
  unfold DRM.new
  rw [hb]
  cases DRMBase.new env rank shape t (some s) kw with
  | error e => rfl
  | ok B =>
    cases kind with
    | denseGaussian =>
      have : denseMat env' B (some s) = denseMat env B (some s) := by
        funext mu
        unfold denseMat
        simp only [h2, h3]
      simp only [this]
    | sparseGaussian => rfl
    | sparseSign => rfl
    | tensorTrain =>
      have : TT.random env' B.ownShape (.seq B.trueRank) B.seed false none .preserve
          = TT.random env B.ownShape (.seq B.trueRank) B.seed false none .preserve := by
        unfold TT.random
        have : ∀ aug, TT.randomCore env' B.ownShape aug B.seed false .preserve
            = TT.randomCore env B.ownShape aug B.seed false .preserve := by
          intro aug
          funext i
          unfold TT.randomCore
          simp only [h4, h5, h6, h8]
        simp only [this]
      simp only [this]

theorem sketchOwn_entropy {env env' : Env K} (h : SameButEntropy env env') (D : DRM K) (X : Leaf K) :
    D.sketchOwn env' X = D.sketchOwn env X := by
  obtain ⟨B, d⟩ := D
  have h1 := h.1
  cases d <;> cases X <;> first | rfl | (unfold DRM.sketchOwn; rw [h1])

theorem contr_entropy {env env' : Env K} (h : SameButEntropy env env') (D : DRM K) :
    D.contr env' = D.contr env := by
  have : D.sketch env' = D.sketch env := by
    funext X
    unfold DRM.sketch
    simp only [sketchOwn_entropy h]
  funext X
  unfold DRM.contr
  rw [this]

theorem orthStep_entropy {env env' : Env K} (h : SameButEntropy env env') :
    (orthStep env' : ND K → _) = orthStep env := by
  obtain ⟨h1, h2, h3, h4, h5, h6, h7, h8, h9⟩ := h
  funext P O
  unfold orthStep rightMulPinv
  rw [h7, h8]

theorem general_entropy {env env' : Env K} (h : SameButEntropy env env') (X : Tensor K) (l : Option (DRM K))
    (r : DRM K) (m : Method) : generalSketch env' X l r m = generalSketch env X l r m := by
  have e : psisOrth env' X = psisOrth env X := by
    funext lr rr om rc
    unfold psisOrth
    congr 1
    funext cores mu
    unfold psiOrthStep
    rw [contr_entropy h, orthStep_entropy h]
  unfold generalSketch
  simp only [contr_entropy h, e]

/-- **C48.** With a seed the three sketching functions do not depend on the entropy of the machine: everything they
return (also the DRMs) is a function of the arguments and of the deterministic routines. -/
theorem C48_seeded (env env' : Env K) (h : SameButEntropy env env') (X : Tensor K) (lrank rrank : RankArg)
    (kw : SketchKw K) (s : ℕ) (hs : kw.seed = some s) (dt : Option DRMKind) (D : Option (DRM K)) (ret : Bool) :
    streamSketch env' X lrank rrank kw = streamSketch env X lrank rrank kw ∧
    orthogonalSketch env' X lrank rrank kw = orthogonalSketch env X lrank rrank kw ∧
    hmtSketch env' X lrank (some s) dt D ret = hmtSketch env X lrank (some s) dt D ret := by
  have hl : ∀ rank trim, leftDRM env' X.shape rank trim s kw = leftDRM env X.shape rank trim s kw := by
    intro rank trim
    unfold leftDRM
    simp only [new_entropy h]
  have hr : ∀ rank trim, rightDRM env' X.shape rank trim s kw = rightDRM env X.shape rank trim s kw := by
    intro rank trim
    unfold rightDRM
    simp only [new_entropy h, h.2.2.2.2.2.2.2.2]
  have hh : hmtDRM env' X.shape lrank s dt D = hmtDRM env X.shape lrank s dt D := by
    cases D
    · simp only [hmtDRM, new_entropy h]
    · rfl
  refine ⟨?_, ?_, ?_⟩
  · unfold streamSketch
    simp only [hs, Option.getD_some, hl, hr, general_entropy h]
  · unfold orthogonalSketch
    simp only [hs, Option.getD_some, hl, hr, general_entropy h]
  · unfold hmtSketch
    simp only [Option.getD_some, hh, general_entropy h]

/-- the hypothesis is met by environments that do differ -/
example : SameButEntropy env0 { env0 with freshSeed := 77, seedOffset := fun s n => if s = none then 3 else n } ∧
    env0.freshSeed ≠ ({ env0 with freshSeed := 77 } : Env ℤ).freshSeed :=
  ⟨⟨rfl, fun _ _ => rfl, rfl, rfl, rfl, rfl, rfl, rfl, rfl⟩, by decide⟩

/-- Finding: the right DRM of a seeded sketch depends on `hash(str(d))`, which python salts per process, so the
same call in two processes gives different sketches. -/
theorem C48_process : ∃ (env env' : Env ℤ) (X : Tensor ℤ) (S S' : Sketched ℤ),
    env' = { env with strHash := env'.strHash } ∧
    streamSketch env X (.int 1) (.int 2) { seed := some 7, leftType := some .denseGaussian } = .ok S ∧
    streamSketch env' X (.int 1) (.int 2) { seed := some 7, leftType := some .denseGaussian } = .ok S' ∧
    (S.sketch.psi.getD 0 (ND.zeros [])).get [0, 0, 0] ≠ (S'.sketch.psi.getD 0 (ND.zeros [])).get [0, 0, 0] := by
  refine ⟨env0, { env0 with strHash := fun _ => 1 }, .leaf (.dense (ND.ofFn [1, 1] fun _ => 1)), _, _, rfl, rfl, rfl, ?_⟩
  decide

/-! ## C59 -/

/-- **C59.** A DRM class without a method for the format of some summand: the call raises `AttributeError`. -/
theorem C59_contr (env : Env K) (D : DRM K) (X : Tensor K) (t : Leaf K) (ht : t ∈ X.summands)
    (h : D.data.supports t = false) : D.contr env X = .error .attributeError := by
  cases X with
  | leaf X =>
    have : t = X := by simpa [Tensor.summands] using ht
    subst this
    unfold DRM.contr DRM.sketch
    simp only [h, if_true]
    rfl
  | sum X =>
    unfold DRM.contr
    simp only []
    rw [if_neg]
    intro hall
    have := List.all_eq_true.1 hall t ht
    rw [h] at this
    cases this

/-- **C59.** No sketching method returns anything when one of the DRMs it uses lacks a method for the format of
some summand. -/
theorem C59_pairs (env : Env K) (X : Tensor K) (l : Option (DRM K)) (r : DRM K) (m : Method) (t : Leaf K)
    (ht : t ∈ X.summands)
    (h : r.data.supports t = false ∨ (m ≠ .hmt ∧ ∃ D, l = some D ∧ D.data.supports t = false)) :
    ∃ e, generalSketch env X l r m = .error e := by
  cases hg : generalSketch env X l r m with
  | error e => exact ⟨e, rfl⟩
  | ok s =>
    exfalso
    rcases h with h | ⟨hm, D, rfl, h⟩
    · have hr := C59_contr env r X t ht h
      cases m with
      | streaming =>
        cases l with
        | none => cases hg
        | some l =>
          obtain ⟨lc, h1, hg⟩ := andThen_ok hg
          obtain ⟨rc, h2, hg⟩ := andThen_ok hg
          rw [hr] at h2; cases h2
      | orthogonal =>
        cases l with
        | none => cases hg
        | some l =>
          obtain ⟨lc, h1, hg⟩ := andThen_ok hg
          obtain ⟨rc, h2, hg⟩ := andThen_ok hg
          rw [hr] at h2; cases h2
      | hmt =>
        obtain ⟨rc, h2, hg⟩ := andThen_ok hg
        rw [hr] at h2; cases h2
    · have hl := C59_contr env D X t ht h
      cases m with
      | streaming =>
        obtain ⟨lc, h1, hg⟩ := andThen_ok hg
        rw [hl] at h1; cases h1
      | orthogonal =>
        obtain ⟨lc, h1, hg⟩ := andThen_ok hg
        rw [hl] at h1; cases h1
      | hmt => exact hm rfl

/-- **C59.** A tensor class without sketching methods (here: an existing sketch) is never sketched, and adding it to
a sketch raises `ValueError`. -/
theorem C59_sketched (env : Env K) (T : Sketched K) (lrank rrank : RankArg) (kw : SketchKw K) (S R : Sketched K) :
    streamSketchAny env (.sketched T) lrank rrank kw ≠ .ok R ∧ S.addAny env (.sketched T) ≠ .ok R := by
  have key : ∀ lrank rrank kw (R : Sketched K), streamSketchAny env (.sketched T) lrank rrank kw ≠ .ok R := by
    intro lrank rrank kw R h
    unfold streamSketchAny at h
    obtain ⟨lb, hlb, h⟩ := andThen_ok h
    obtain ⟨rb, hrb, h⟩ := andThen_ok h
    split at h
    · cases h
    obtain ⟨l, hl, h⟩ := andThen_ok h
    obtain ⟨r, hr, h⟩ := andThen_ok h
    obtain ⟨s, hs, h⟩ := andThen_ok h
    cases hs
  refine ⟨key _ _ _ _, fun h => ?_⟩
  obtain ⟨o, ho, -⟩ := andThen_ok h
  exact key _ _ _ _ ho

/-- Finding: `stt1 + stt2` raises `ValueError` for two sketches made by `stream_sketch`. -/
theorem C59_add (env : Env K) (X : Tensor K) (S T : Sketched K) (hS : Streamed env X S) :
    S.addAny env (.sketched T) = .error .valueError := by
  have hd : 2 ≤ X.shape.length := by rw [hS.accL.shape]; exact hS.accL.wf.two
  obtain ⟨h1, h2⟩ := hS.accL.ranks hS.accR
  unfold Sketched.addAny streamSketchAny Sketched.leftRank Sketched.rightRank
  rw [ranksLess_eq (a := .seq S.right.rank.reverse) (b := .seq S.left.rank) hd h2 h1,
    ranksLess_eq (a := .seq S.left.rank) (b := .seq S.right.rank.reverse) hd h1 h2]
  simp only [Except.andThen, leftDRM, rightDRM, if_true, generalSketchAny]
  split_ifs <;> rfl

example : (DRMData.gauss : DRMData ℤ).supports (.tt sTT) = false ∧
    (DRMData.sign [2] : DRMData ℤ).supports (.dense sDense) = false ∧
    (DRMData.dense [] : DRMData ℤ).supports (.cp sCP) = false := ⟨rfl, rfl, rfl⟩

/-! ## C60 (sketch containers) -/

/-- **C60.** `SketchContainer.zero` has the requested shapes, only zero entries, and is neutral for the addition of
containers. -/
theorem C60_container (sh lr rr : List ℕ) (hd : 1 ≤ sh.length) (hl : lr.length = sh.length - 1)
    (hr : rr.length = sh.length - 1) :
    (Container.zero sh lr rr : Container K).HasShape sh lr rr ∧
    (∀ mu i, ((Container.zero sh lr rr : Container K).psi.getD mu (ND.zeros [])).get i = 0) ∧
    (∀ mu i, ((Container.zero sh lr rr : Container K).omega.getD mu (ND.zeros [])).get i = 0) ∧
    ∀ A : Container K, A.HasShape sh lr rr →
      A.add (Container.zero sh lr rr) = A ∧ (Container.zero sh lr rr).add A = A := by
  have z : (Container.zero sh lr rr : Container K) = contOf sh lr rr (fun _ _ => 0) (fun _ _ => 0) := by
    have := contSum_nil (env := (⟨fun _ => 0, 0, fun _ _ => 0, fun _ _ => 0, fun _ _ _ => 0, fun _ _ _ => 0,
      fun _ => 0, fun _ b => b, fun a => (a, a), fun _ => 0⟩ : Env K))
      (l := ⟨⟨lr, [], [], [], sh, false, 0⟩, .gauss⟩) (r := ⟨⟨rr.reverse, [], [], [], sh, false, 0⟩, .gauss⟩)
      (sh := sh) hd hl (by simpa using hr)
    simp only [List.reverse_reverse] at this
    rw [← this]
    unfold contSum
    simp
  have cont : ∀ A : Container K, A.HasShape sh lr rr → A = contOf sh lr rr
      (fun mu i => (A.psi.getD mu (ND.zeros [])).get i) (fun mu i => (A.omega.getD mu (ND.zeros [])).get i) := by
    intro A hA
    obtain ⟨psi, omega, s, l, r⟩ := A
    obtain ⟨h1, h2, h3, h4, h5, h6, h7⟩ := hA
    simp only at h1 h2 h3 h4 h5 h6 h7
    subst h1 h2 h3
    unfold contOf
    simp only []
    congr 1
    · apply List.ext_getElem (by simp [h4])
      intro k hk hk'
      have hk2 : k < s.length := by omega
      simp only [List.getElem_map, List.getElem_range]
      rw [← getD_eq hk (ND.zeros [])]
      have := h6 k hk2
      refine ND.ext' (this.trans (psiShape_eq hr hk2).symm) fun i hi => ?_
      rw [ND.ofFn_get]
      rw [psiShape_eq hr hk2, ← this]; exact hi
    · apply List.ext_getElem (by simp [h5])
      intro k hk hk'
      have hk2 : k < s.length - 1 := by omega
      simp only [List.getElem_map, List.getElem_range]
      rw [← getD_eq hk (ND.zeros [])]
      have := h7 k hk2
      refine ND.ext' this fun i hi => ?_
      rw [ND.ofFn_get]
      rw [← this]; exact hi
  rw [z]
  refine ⟨⟨rfl, rfl, rfl, by simp [contOf], by simp [contOf], fun mu hmu => ?_, fun mu hmu => ?_⟩, fun mu i => ?_,
    fun mu i => ?_, fun A hA => ?_⟩
  · show ND.shape (((List.range sh.length).map _).getD mu _) = _
    rw [getD_map_range _ _ _ _ hmu]
    exact psiShape_eq hr hmu
  · show ND.shape (((List.range (sh.length - 1)).map _).getD mu _) = _
    rw [getD_map_range _ _ _ _ hmu]
    rfl
  · show ND.get (((List.range sh.length).map _).getD mu _) i = 0
    by_cases hmu : mu < sh.length
    · rw [getD_map_range _ _ _ _ hmu, ofFn_zero, ND.zeros_get]
    · rw [List.getD_eq_default _ _ (by simpa using hmu), ND.zeros_get]
  · show ND.get (((List.range (sh.length - 1)).map _).getD mu _) i = 0
    by_cases hmu : mu < sh.length - 1
    · rw [getD_map_range _ _ _ _ hmu, ofFn_zero, ND.zeros_get]
    · rw [List.getD_eq_default _ _ (by simpa using hmu), ND.zeros_get]
  · constructor
    · conv_rhs => rw [cont A hA]
      conv_lhs => rw [cont A hA]
      rw [contOf_add hl hr]
      simp only [add_zero]
    · conv_rhs => rw [cont A hA]
      conv_lhs => rw [cont A hA]
      rw [contOf_add hl hr]
      simp only [zero_add]

example : (Container.zero [2, 3, 4] [2, 2] [5, 6] : Container ℤ).psi.map (·.shape)
    = [[1, 2, 5], [2, 3, 6], [2, 4, 1]] := by decide

end TTS.Props
