import Verif.Model.ExperimentFns
import Verif.Spec.ExperimentFns
import Verif.Props.TTSvd
import Verif.Props.Objects
import Verif.Props.OrthAll
import Verif.Props.Tail
import Verif.Proofs.NystromChain

/-!
# C88: the experiment functions
-/

namespace TTS.Props

open TTS TTS.Spec Finset MeasureTheory
open scoped ENNReal

theorem toObj_pos (env : Env ℝ) {X : Tensor ℝ} (pX : PosTT X) : X.toObj.PosTT env := by
  match X, pX with
  | .leaf (.tt A), p => exact p
  | .leaf (.dense A), p => trivial
  | .leaf (.sparse A), p => trivial
  | .leaf (.cp A), p => trivial
  | .leaf (.tucker A), p => trivial
  | .sum A, p => trivial

/-- The error of a tensor train against the input. -/
theorem reported_tt {env : Env ℝ} {la : LinAlg} (hq : la.QROk) {X : Tensor ℝ} (hX : X.Valid) (dX : X.Distinct)
    (pX : PosTT X) (hd : 2 ≤ X.shape.length) {Y : TT ℝ} (vY : Y.Valid) (sY : Y.shape = X.shape) (pY : Y.Pos) :
    reportedError env la none (.atom (.leaf (.tt Y))) X = .ok (errorSpec Y.toNumpy X.toNumpy true false) := by
  have gY : (Obj.atom (.leaf (.tt Y))).Good env X.shape := ⟨vY, trivial, sY⟩
  have aY : (Obj.atom (.leaf (.tt Y))).array env X.shape = Y.toNumpy :=
    (array_eq ((TT.toNumpy_shape vY).trans sY) fun i => rfl).symm
  have := C82_error hq gY (toObj_good env hX dX) pY (toObj_pos env pX) hd true false false (by simp) (by simp)
  rw [aY, toObj_array env hX] at this
  exact this

theorem dist_triangle {A B C : ND ℝ} (h : B.shape = A.shape) :
    √ (distSq A C) ≤ √ (distSq A B) + √ (distSq B C) := by
  rw [sqrt_distSq, sqrt_distSq, sqrt_distSq, h]
  exact norm_sub_le_norm_sub_add_norm_sub _ _ _

theorem dist_comm {A B : ND ℝ} (h : B.shape = A.shape) : √ (distSq A B) = √ (distSq B A) := by
  rw [sqrt_distSq, sqrt_distSq, h]
  exact norm_sub_rev _ _

/-- Rounding an approximation. -/
theorem round_truncated {la : LinAlg} (hq : la.QROk) (hs : la.SVDOk) {A : ND ℝ} {T : TT ℝ} (vT : T.Valid)
    (sT : T.shape = A.shape) (pT : T.Pos) (a : RankArg) (hl : (askedRanks A.shape a).length + 1 = A.shape.length)
    (ha : ∀ r ∈ askedRanks A.shape a, 0 < r) :
    ∃ Y, T.round la none (some a) false = .ok Y ∧ Y.Pos ∧ Truncated A T Y (askedRanks A.shape a) := by
  have hl' : (askedRanks T.shape a).length + 1 = T.shape.length := by rw [sT]; exact hl
  obtain ⟨Y, hY, vY, sY, pY, lY, rY, -⟩ := C19 hq hs vT pT none (some a) false (by rintro _ ⟨⟩; exact hl')
  obtain ⟨Y', hY', qY⟩ := C20_quasi_optimal hq hs vT pT none le_rfl a false hl' (by simp)
  obtain rfl : Y = Y' := by rw [hY] at hY'; injection hY'
  have rT : T.rank.length = (askedRanks A.shape a).length := by
    have := rank_length vT
    rw [sT] at this
    omega
  refine ⟨Y, hY, pY, vY, sY.trans sT, ⟨lY.1.trans rT, fun k hk => ?_⟩, fun W vW sW rW => ?_⟩
  · have hk' : k < (askedRanks A.shape a).length := by rw [← rT, ← lY.1]; exact hk
    have h1 := (rY a rfl k (by rw [← lY.1]; exact hk)).2
    rw [sT, List.getD_eq_getElem _ _ hk'] at h1
    rw [List.getD_eq_getElem (askedRanks A.shape a) _ hk']
    have h2 := ha _ (List.getElem_mem hk')
    omega
  · have nT : T.toNumpy.shape = A.shape := (TT.toNumpy_shape vT).trans sT
    have nY : Y.toNumpy.shape = A.shape := (TT.toNumpy_shape vY).trans (sY.trans sT)
    have nW : W.toNumpy.shape = A.shape := (TT.toNumpy_shape vW).trans sW
    have h1 := qY W vW (sW.trans sT.symm) (by rw [sT]; exact rW)
    simp only [Option.getD_none, ne_eq, OfNat.ofNat_ne_zero, not_false_eq_true, zero_pow, zero_mul, mul_zero, add_zero, sT] at h1
    have h2 := Real.sqrt_le_sqrt h1
    rw [Real.sqrt_mul (Nat.cast_nonneg _)] at h2
    have h3 := dist_triangle (C := Y.toNumpy) nT
    have h4 : √ (distSq T.toNumpy W.toNumpy) ≤ √ (distSq A T.toNumpy) + √ (distSq A W.toNumpy) := by
      have := dist_triangle (C := W.toNumpy) (nT.symm)
      rwa [← dist_comm nT] at this
    have h5 := mul_le_mul_of_nonneg_left h4 (Real.sqrt_nonneg ((A.shape.length - 1 : ℕ) : ℝ))
    calc √ (distSq A Y.toNumpy) ≤ _ := h3
      _ ≤ √ (distSq A T.toNumpy) + √ ((A.shape.length - 1 : ℕ) : ℝ) * (√ (distSq A T.toNumpy) + √ (distSq A W.toNumpy)) := by
        linarith
      _ = _ := by ring

theorem asked_int (sh : List ℕ) (hd : 2 ≤ sh.length) (r : ℕ) : (askedRanks sh (.int r)).length + 1 = sh.length := by
  show (List.replicate (sh.length - 1) r).length + 1 = _
  rw [List.length_replicate]
  omega

theorem assertMaxRank_ok {Y : TT ℝ} {r : ℕ} (h : Y.rank ≠ []) :
    assertMaxRank Y (.int r) = if ∀ k ∈ Y.rank, k ≤ r then .ok () else .error .assertionError := by
  unfold assertMaxRank
  cases hm : Y.rank.max? with
  | none => exact absurd (List.max?_eq_none_iff.1 hm) h
  | some m =>
    dsimp only
    have := List.max?_le_iff hm (x := r)
    split_ifs with h1 h2 h2
    · rfl
    · exact absurd (this.1 h1) h2
    · exact absurd (this.2 h2) h1
    · rfl

variable {Ω : Type*} [MeasurableSpace Ω] {P : Measure Ω} {g : Ω → Draw → ℝ}

/-- **C88, `experiment_stream_sketch`.** Let `S = stream_sketch(X, ...)` and `T = S.to_tt()`, with positive mode sizes and
ranks.  Without recompression the recorded error is the relative Frobenius distance of `T` and `X`.  With recompression
rank `r > 0` it is that of a tensor train whose ranks are at most `r` and that is a good approximation if `T` is; the
assertion holds.  With an `error_func`, it is called with this approximation and `X`. -/
theorem C88_stream (env : Env ℝ) (hE : LstsqContract env) {la : LinAlg} (hq : la.QROk) (hs : la.SVDOk) (X : Tensor ℝ)
    (lrank rrank : RankArg) (lt rt : Option DRMKind) (S : Sketched ℝ) (hX : X.Valid) (nX : X.NonEmpty) (dX : X.Distinct)
    (hd : 2 ≤ X.shape.length) (h : streamSketch env X lrank rrank { leftType := lt, rightType := rt } = .ok S)
    (pX : PosTT X) (p1 : ∀ n ∈ X.shape, 0 < n) (p2 : ∀ r ∈ S.leftRank, 0 < r) (p3 : ∀ r ∈ S.rightRank, 0 < r) :
    ∃ T, S.toTT env = .ok T ∧ T.Valid ∧ T.shape = X.shape ∧
      experimentStreamSketch env la X lrank rrank lt rt none none = .ok (errorSpec T.toNumpy X.toNumpy true false) ∧
      (∀ f, experimentStreamSketch env la X lrank rrank lt rt (some f) none = f (.atom (.sketched S)) X) ∧
      ∀ r, 0 < r → ∃ Y, Truncated X.toNumpy T Y (List.replicate (X.shape.length - 1) r) ∧
        experimentStreamSketch env la X lrank rrank lt rt none (some (.int r))
          = .ok (errorSpec Y.toNumpy X.toNumpy true false) ∧
        ∀ f, experimentStreamSketch env la X lrank rrank lt rt (some f) (some (.int r)) = f (.atom (.leaf (.tt Y))) X := by
  have hkw : SketchKw.Good ({ leftType := lt, rightType := rt } : SketchKw ℝ) := SketchKw.good_none _ _ _
  obtain ⟨-, -, -, -, ll, lr⟩ := C38_shapes env X lrank rrank _ S hkw hX nX hd h
  obtain ⟨T, hT, vT, sT, rl, rT⟩ := (C40_cores env hE X lrank rrank _ S hkw hX nX hd h).2.2.1
  obtain ⟨T', hT', eT, -⟩ := C82_stream_error env hE hq X lrank rrank _ S hkw hX nX dX hd h pX p1 p2 p3 true false false
  obtain rfl : T = T' := by rw [hT] at hT'; injection hT'
  have pT : T.Pos := by
    refine ⟨by rw [sT]; exact p1, fun r hr => ?_⟩
    obtain ⟨k, hk, rfl⟩ := List.getElem_of_mem hr
    have := rT k (by omega)
    rw [List.getD_eq_getElem _ _ hk, List.getD_eq_getElem _ _ (by omega), List.getD_eq_getElem _ _ (by omega)] at this
    rw [this]
    exact lt_min (p2 _ (List.getElem_mem _)) (p3 _ (List.getElem_mem _))
  have sX := Tensor.toNumpy_shape hX
  refine ⟨T, hT, vT, sT, ?_, fun f => ?_, fun r hr => ?_⟩
  · unfold experimentStreamSketch
    rw [h]
    exact (eT (by simp)).1
  · unfold experimentStreamSketch
    rw [h]
    rfl
  · obtain ⟨Y, hY, pY, tY⟩ := round_truncated hq hs (A := X.toNumpy) vT (sT.trans sX.symm) pT (.int r)
      (by rw [sX]; exact asked_int _ hd r) (fun k hk => by rw [List.eq_of_mem_replicate hk]; exact hr)
    rw [show askedRanks X.toNumpy.shape (.int r) = List.replicate (X.shape.length - 1) r by rw [sX]; rfl] at tY
    have key : ∀ f, experimentStreamSketch env la X lrank rrank lt rt f (some (.int r))
        = reportedError env la f (.atom (.leaf (.tt Y))) X := by
      intro f
      unfold experimentStreamSketch
      rw [h]
      show (S.toTT env).andThen _ = _
      rw [hT]
      show (T.round la none (some (.int r)) false).andThen _ = _
      rw [hY]
      show (assertMaxRank Y (.int r)).andThen _ = _
      have hl := tY.rank.1
      rw [List.length_replicate] at hl
      rw [assertMaxRank_ok (by intro h0; rw [h0, List.length_nil] at hl; omega), if_pos]
      · rfl
      · intro k hk
        obtain ⟨m, hm, rfl⟩ := List.getElem_of_mem hk
        have := tY.rank.2 m hm
        rw [List.getD_eq_getElem _ _ hm, List.getD_eq_getElem _ _ (by rw [List.length_replicate]; omega),
          List.getElem_replicate] at this
        exact this
    refine ⟨Y, tY, ?_, fun f => by rw [key]; rfl⟩
    rw [key]
    exact reported_tt hq hX dX pX hd tY.valid (tY.shape.trans sX) pY

/-- **C88, recompression rank 0.** `round` keeps at least rank one, so that the assertion fails. -/
theorem C88_zero (env : Env ℝ) (hE : LstsqContract env) {la : LinAlg} (hq : la.QROk) (hs : la.SVDOk) (X : Tensor ℝ)
    (lrank rrank : RankArg) (lt rt : Option DRMKind) (S : Sketched ℝ) (hX : X.Valid) (nX : X.NonEmpty)
    (hd : 2 ≤ X.shape.length) (h : streamSketch env X lrank rrank { leftType := lt, rightType := rt } = .ok S)
    (p1 : ∀ n ∈ X.shape, 0 < n) (p2 : ∀ r ∈ S.leftRank, 0 < r) (p3 : ∀ r ∈ S.rightRank, 0 < r)
    (f : Option ErrorFunc) :
    experimentStreamSketch env la X lrank rrank lt rt f (some (.int 0)) = .error .assertionError ∧
      ∀ rs : List ℕ, rs.length + 1 = X.shape.length →
        experimentStreamSketch env la X lrank rrank lt rt f (some (.seq rs)) = .error .typeError := by
  have hkw : SketchKw.Good ({ leftType := lt, rightType := rt } : SketchKw ℝ) := SketchKw.good_none _ _ _
  obtain ⟨-, -, -, -, ll, lr⟩ := C38_shapes env X lrank rrank _ S hkw hX nX hd h
  obtain ⟨T, hT, vT, sT, rl, rT⟩ := (C40_cores env hE X lrank rrank _ S hkw hX nX hd h).2.2.1
  have pT : T.Pos := by
    refine ⟨by rw [sT]; exact p1, fun r hr => ?_⟩
    obtain ⟨k, hk, rfl⟩ := List.getElem_of_mem hr
    have := rT k (by omega)
    rw [List.getD_eq_getElem _ _ hk, List.getD_eq_getElem _ _ (by omega), List.getD_eq_getElem _ _ (by omega)] at this
    rw [this]
    exact lt_min (p2 _ (List.getElem_mem _)) (p3 _ (List.getElem_mem _))
  have key : ∀ a, (askedRanks T.shape a).length + 1 = T.shape.length → ∃ Y : TT ℝ, Y.rank ≠ [] ∧ Y.Pos ∧
      experimentStreamSketch env la X lrank rrank lt rt f (some a)
        = (assertMaxRank Y a).andThen fun _ => reportedError env la f (.atom (.leaf (.tt Y))) X := by
    intro a ha
    obtain ⟨Y, hY, vY, sY, pY, lY, -⟩ := C19 hq hs vT pT none (some a) false (by rintro _ ⟨⟩; exact ha)
    refine ⟨Y, fun h0 => ?_, pY, ?_⟩
    · have := lY.1
      rw [h0, List.length_nil] at this
      omega
    · unfold experimentStreamSketch
      rw [h]
      show (S.toTT env).andThen _ = _
      rw [hT]
      show (T.round la none (some a) false).andThen _ = _
      rw [hY]
      rfl
  constructor
  · obtain ⟨Y, nY, pY, e⟩ := key (.int 0) (asked_int _ (by rw [sT]; exact hd) 0)
    rw [e, assertMaxRank_ok nY, if_neg]
    · rfl
    · intro h0
      obtain ⟨r, hr⟩ := List.exists_mem_of_ne_nil _ nY
      have := pY.2 r hr
      have := h0 r hr
      omega
  · intro rs hrs
    obtain ⟨Y, nY, pY, e⟩ := key (.seq rs) (by rw [sT]; exact hrs)
    rw [e]
    unfold assertMaxRank
    cases hm : Y.rank.max? with
    | none => exact absurd (List.max?_eq_none_iff.1 hm) nY
    | some m => rfl

/-- The recompression of the two other sketching functions. -/
theorem recompress_cases {la : LinAlg} (hq : la.QROk) (hs : la.SVDOk) {X : Tensor ℝ} (hX : X.Valid) {T : TT ℝ}
    (vT : T.Valid) (sT : T.shape = X.shape) (pT : T.Pos) (a : RankArg)
    (hl : (askedRanks X.shape a).length + 1 = X.shape.length) (ha : ∀ r ∈ askedRanks X.shape a, 0 < r) :
    ∃ Y, recompress la T (some a) = .ok Y ∧ Y.Pos ∧ Truncated X.toNumpy T Y (askedRanks X.shape a) := by
  have sX := Tensor.toNumpy_shape hX
  have := round_truncated hq hs (A := X.toNumpy) vT (sT.trans sX.symm) pT a (by rw [sX]; exact hl) (by rw [sX]; exact ha)
  rw [sX] at this
  exact this

/-- `experiment_orthogonal_sketch`, given a proper train. -/
theorem experiment_orthogonal_of (env : Env ℝ) {la : LinAlg} (hq : la.QROk) (hs : la.SVDOk) (X : Tensor ℝ)
    (lrank rrank : RankArg) (lt rt : Option DRMKind) (T : TT ℝ) (l r : DRM ℝ) (hX : X.Valid) (dX : X.Distinct)
    (hd : 2 ≤ X.shape.length) (h : orthogonalSketch env X lrank rrank { leftType := lt, rightType := rt } = .ok (T, l, r))
    (pX : PosTT X) (vT : T.Valid) (sT : T.shape = X.shape) (pT : T.Pos) :
    experimentOrthogonalSketch env la X lrank rrank lt rt none none = .ok (errorSpec T.toNumpy X.toNumpy true false) ∧
      (∀ f, experimentOrthogonalSketch env la X lrank rrank lt rt (some f) none = f (.atom (.leaf (.tt T))) X) ∧
      ∀ a, (askedRanks X.shape a).length + 1 = X.shape.length → (∀ r ∈ askedRanks X.shape a, 0 < r) →
        ∃ Y, Truncated X.toNumpy T Y (askedRanks X.shape a) ∧
          experimentOrthogonalSketch env la X lrank rrank lt rt none (some a)
            = .ok (errorSpec Y.toNumpy X.toNumpy true false) ∧
          ∀ f, experimentOrthogonalSketch env la X lrank rrank lt rt (some f) (some a) = f (.atom (.leaf (.tt Y))) X := by
  have sX := Tensor.toNumpy_shape hX
  have key : ∀ f c Y, recompress la T c = .ok Y → experimentOrthogonalSketch env la X lrank rrank lt rt f c
      = reportedError env la f (.atom (.leaf (.tt Y))) X := by
    intro f c Y hY
    unfold experimentOrthogonalSketch
    rw [h]
    show (recompress la T c).andThen _ = _
    rw [hY]
    rfl
  refine ⟨?_, fun f => key _ _ T rfl, fun a hl ha => ?_⟩
  · rw [key _ _ T rfl]
    exact reported_tt hq hX dX pX hd vT sT pT
  · obtain ⟨Y, hY, pY, tY⟩ := recompress_cases hq hs hX vT sT pT a hl ha
    refine ⟨Y, tY, ?_, fun f => key _ _ Y hY⟩
    rw [key _ _ Y hY]
    exact reported_tt hq hX dX pX hd tY.valid (tY.shape.trans sX) pY

/-- **C88, `experiment_orthogonal_sketch`.** The reported error is the relative error of the tensor train that
`orthogonal_sketch` returns or, with a recompression rank, of a truncation of it. -/
theorem C88_orthogonal (env : Env ℝ) (hE : LstsqContract env) (hQ : QRContract env) {la : LinAlg} (hq : la.QROk)
    (hs : la.SVDOk) (X : Tensor ℝ) (lrank rrank : RankArg) (lt rt : Option DRMKind) (T : TT ℝ) (l r : DRM ℝ)
    (hX : X.Valid) (hne : X.NonEmpty) (dX : X.Distinct) (hd : 2 ≤ X.shape.length) (pX : PosTT X)
    (p1 : ∀ n ∈ X.shape, 0 < n) (p2 : ∀ r ∈ ranksOf lrank X.shape.length, 0 < r)
    (h : orthogonalSketch env X lrank rrank { leftType := lt, rightType := rt } = .ok (T, l, r)) :
    experimentOrthogonalSketch env la X lrank rrank lt rt none none = .ok (errorSpec T.toNumpy X.toNumpy true false) ∧
      (∀ f, experimentOrthogonalSketch env la X lrank rrank lt rt (some f) none = f (.atom (.leaf (.tt T))) X) ∧
      ∀ a, (askedRanks X.shape a).length + 1 = X.shape.length → (∀ r ∈ askedRanks X.shape a, 0 < r) →
        ∃ Y, Truncated X.toNumpy T Y (askedRanks X.shape a) ∧
          experimentOrthogonalSketch env la X lrank rrank lt rt none (some a)
            = .ok (errorSpec Y.toNumpy X.toNumpy true false) ∧
          ∀ f, experimentOrthogonalSketch env la X lrank rrank lt rt (some f) (some a) = f (.atom (.leaf (.tt Y))) X := by
  have hkw : ({ leftType := lt, rightType := rt } : SketchKw ℝ).Good := SketchKw.good_none none lt rt
  obtain ⟨vT, sT, rT, -⟩ := C41_form_all env hE hQ X lrank rrank _ T l r hkw hX hne hd h
  obtain ⟨-, -, hl, -, -, -, hr, -⟩ := orth_inv hkw hX hne hd h
  refine experiment_orthogonal_of env hq hs X lrank rrank lt rt T l r hX dX hd h pX vT sT ⟨by rw [sT]; exact p1, ?_⟩
  rw [rT, hr rfl]
  exact trim_pos (by omega) p1 p2

/-- `experiment_hmt_sketch`, given a proper train. -/
theorem experiment_hmt_of (env : Env ℝ) {la : LinAlg} (hq : la.QROk) (hs : la.SVDOk) (X : Tensor ℝ)
    (rank : RankArg) (kind : Option DRMKind) (T : TT ℝ) (hX : X.Valid) (dX : X.Distinct)
    (hd : 2 ≤ X.shape.length) (h : hmtSketch env X rank none kind = .ok T)
    (pX : PosTT X) (vT : T.Valid) (sT : T.shape = X.shape) (pT : T.Pos) :
    experimentHmtSketch env la X rank kind none none = .ok (errorSpec T.toNumpy X.toNumpy true false) ∧
      (∀ f, experimentHmtSketch env la X rank kind (some f) none = f (.atom (.leaf (.tt T))) X) ∧
      ∀ a, (askedRanks X.shape a).length + 1 = X.shape.length → (∀ r ∈ askedRanks X.shape a, 0 < r) →
        ∃ Y, Truncated X.toNumpy T Y (askedRanks X.shape a) ∧
          experimentHmtSketch env la X rank kind none (some a) = .ok (errorSpec Y.toNumpy X.toNumpy true false) ∧
          ∀ f, experimentHmtSketch env la X rank kind (some f) (some a) = f (.atom (.leaf (.tt Y))) X := by
  have sX := Tensor.toNumpy_shape hX
  have key : ∀ f c Y, recompress la T c = .ok Y → experimentHmtSketch env la X rank kind f c
      = reportedError env la f (.atom (.leaf (.tt Y))) X := by
    intro f c Y hY
    unfold experimentHmtSketch
    rw [h]
    show (recompress la T c).andThen _ = _
    rw [hY]
    rfl
  refine ⟨?_, fun f => key _ _ T rfl, fun a hl ha => ?_⟩
  · rw [key _ _ T rfl]
    exact reported_tt hq hX dX pX hd vT sT pT
  · obtain ⟨Y, hY, pY, tY⟩ := recompress_cases hq hs hX vT sT pT a hl ha
    refine ⟨Y, tY, ?_, fun f => key _ _ Y hY⟩
    rw [key _ _ Y hY]
    exact reported_tt hq hX dX pX hd tY.valid (tY.shape.trans sX) pY

/-- **C88, `experiment_hmt_sketch`.** The reported error is the relative error of the tensor train that
`hmt_sketch` returns or, with a recompression rank, of a truncation of it. -/
theorem C88_hmt (env : Env ℝ) (hE : LstsqContract env) (hQ : QRContract env) {la : LinAlg} (hq : la.QROk)
    (hs : la.SVDOk) (X : Tensor ℝ) (rank : RankArg) (kind : Option DRMKind) (T : TT ℝ)
    (hX : X.Valid) (hne : X.NonEmpty) (dX : X.Distinct) (hd : 2 ≤ X.shape.length) (pX : PosTT X)
    (p1 : ∀ n ∈ X.shape, 0 < n) (p2 : ∀ r ∈ ranksOf rank X.shape.length, 0 < r)
    (h : hmtSketch env X rank none kind = .ok T) :
    experimentHmtSketch env la X rank kind none none = .ok (errorSpec T.toNumpy X.toNumpy true false) ∧
      (∀ f, experimentHmtSketch env la X rank kind (some f) none = f (.atom (.leaf (.tt T))) X) ∧
      ∀ a, (askedRanks X.shape a).length + 1 = X.shape.length → (∀ r ∈ askedRanks X.shape a, 0 < r) →
        ∃ Y, Truncated X.toNumpy T Y (askedRanks X.shape a) ∧
          experimentHmtSketch env la X rank kind none (some a) = .ok (errorSpec Y.toNumpy X.toNumpy true false) ∧
          ∀ f, experimentHmtSketch env la X rank kind (some f) (some a) = f (.atom (.leaf (.tt Y))) X := by
  have hg : ∀ D : DRM ℝ, none = some D → D.WF ∧ D.toDRMBase.Full ∧ D.transpose = true := by simp
  obtain ⟨vT, sT, rT, -⟩ := C42_form_all env hE hQ X rank none kind none false T hg hX hne hd h
  obtain ⟨-, D, h0, -⟩ := hmt_inv hg hX hne hd h
  obtain ⟨-, -, -, h4⟩ := hmtDRM_inv hg hd h0
  have hl : (ranksOf rank X.shape.length).length + 1 = X.shape.length := by
    rcases h4 with ⟨h4, -⟩ | ⟨-, -, -, h4, -⟩
    · cases h4
    · exact h4
  refine experiment_hmt_of env hq hs X rank kind T hX dX hd h pX vT sT ⟨by rw [sT]; exact p1, ?_⟩
  rw [rT rfl]
  exact trim_pos hl p1 p2

/-- **C88, `experiment_tt_svd`.** The recorded error is the relative distance of a tensor train with the ranks asked for
that is at most `√(d-1)` times as far from `X` as any such tensor train. -/
theorem C88_tt_svd (env : Env ℝ) {la : LinAlg} (hq : la.QROk) (hs : la.SVDThinOk) (X : Tensor ℝ) (hX : X.Valid)
    (dX : X.Distinct) (pX : PosTT X) (hd : 2 ≤ X.shape.length) (p1 : ∀ n ∈ X.shape, 0 < n) (rank : Option RankArg)
    (hl : (svdRanks X.shape rank).length + 1 = X.shape.length) (hr : ∀ r ∈ svdRanks X.shape rank, 0 < r) :
    ∃ Y : TT ℝ, Y.Valid ∧ Y.shape = X.shape ∧ RanksLe Y.rank (svdRanks X.shape rank) ∧
      experimentTTSvd env la X rank none = .ok (errorSpec Y.toNumpy X.toNumpy true false) ∧
      (∀ f, experimentTTSvd env la X rank (some f) = f (.atom (.leaf (.tt Y))) X) ∧
      ∀ W : TT ℝ, W.Valid → W.shape = X.shape → RanksLe W.rank (svdRanks X.shape rank) →
        √ (distSq X.toNumpy Y.toNumpy) ≤ √ ((X.shape.length - 1 : ℕ) : ℝ) * √ (distSq X.toNumpy W.toNumpy) := by
  have sX := Tensor.toNumpy_shape hX
  obtain ⟨Y, disc, -, hY, vY, sY, -, rY, -, -, oY⟩ := C49 hs X.toNumpy (by rw [sX]; exact hd) (by rw [sX]; exact p1) rank
    (by rw [sX]; exact hl)
  rw [sX] at sY rY oY
  have lY := rank_length vY
  rw [sY] at lY
  have key : ∀ f, experimentTTSvd env la X rank f = reportedError env la f (.atom (.leaf (.tt Y))) X := by
    intro f
    unfold experimentTTSvd
    rw [hY]
    rfl
  have pY : Y.Pos := by
    refine ⟨by rw [sY]; exact p1, fun r hr => ?_⟩
    obtain ⟨k, hk, rfl⟩ := List.getElem_of_mem hr
    have := (rY k (by omega)).1
    rwa [List.getD_eq_getElem _ _ hk] at this
  refine ⟨Y, vY, sY, ⟨by omega, fun k hk => ?_⟩, ?_, fun f => by rw [key]; rfl, fun W vW sW rW => ?_⟩
  · have h1 := (rY k (by omega)).2
    have h2 := (C02 X.shape _ hl k (by omega)).2.1
    have hk' : k < (svdRanks X.shape rank).length := by omega
    have h3 := hr _ (List.getElem_mem hk')
    rw [List.getD_eq_getElem (svdRanks X.shape rank) _ hk'] at h2 ⊢
    omega
  · rw [key]
    exact reported_tt hq hX dX pX hd vY sY pY
  · rw [← Real.sqrt_mul (Nat.cast_nonneg _)]
    exact Real.sqrt_le_sqrt (oY W vW sW rW)

/-- **C88, `experiment_tt_round`.** -/
theorem C88_tt_round (env : Env ℝ) {la : LinAlg} (hq : la.QROk) (hs : la.SVDOk) (X : TT ℝ) (hX : X.Valid) (pX : X.Pos)
    (hd : 2 ≤ X.shape.length) (a : RankArg) (hl : (askedRanks X.shape a).length + 1 = X.shape.length)
    (ha : ∀ r ∈ askedRanks X.shape a, 0 < r) :
    ∃ Y : TT ℝ, Y.Valid ∧ Y.shape = X.shape ∧ RanksLe Y.rank (askedRanks X.shape a) ∧
      experimentTTRound env la X (some a) none = .ok (errorSpec Y.toNumpy X.toNumpy true false) ∧
      (∀ f, experimentTTRound env la X (some a) (some f) = f (.atom (.leaf (.tt Y))) (.leaf (.tt X))) ∧
      ∀ W : TT ℝ, W.Valid → W.shape = X.shape → RanksLe W.rank (askedRanks X.shape a) →
        √ (distSq X.toNumpy Y.toNumpy) ≤ √ ((X.shape.length - 1 : ℕ) : ℝ) * √ (distSq X.toNumpy W.toNumpy) := by
  have sX := TT.toNumpy_shape hX
  obtain ⟨Y, hY, pY, tY⟩ := round_truncated hq hs (A := X.toNumpy) hX sX.symm pX a (by rw [sX]; exact hl)
    (by rw [sX]; exact ha)
  rw [sX] at tY
  have key : ∀ f, experimentTTRound env la X (some a) f
      = reportedError env la f (.atom (.leaf (.tt Y))) (.leaf (.tt X)) := by
    intro f
    unfold experimentTTRound
    rw [hY]
    rfl
  refine ⟨Y, tY.valid, tY.shape.trans sX, tY.rank, ?_, fun f => by rw [key]; rfl, fun W vW sW rW => ?_⟩
  · rw [key]
    exact reported_tt (X := .leaf (.tt X)) hq hX trivial pX hd tY.valid (tY.shape.trans sX) pY
  · have := tY.near W vW (sW.trans sX.symm) rW
    have h0 : distSq X.toNumpy X.toNumpy = 0 := by
      unfold distSq
      simp [sumIdx_zero]
    rw [h0, Real.sqrt_zero, mul_zero, zero_add, sX] at this
    exact this

/-- **C88, recompression with high probability.** If the squared error of a randomised approximation is at most `t` except
with probability `δ`, then the error of the recompressed approximation is at most
`(1 + √(d-1)) √t + √(d-1) ‖A - W‖` except with probability `δ`, for every tensor train `W` with the ranks asked for. -/
theorem C88_prob {la : LinAlg} (hq : la.QROk) (hs : la.SVDOk) {f : Ω → Except PyErr (TT ℝ)} {A : ND ℝ} {t δ : ℝ}
    (h : WithProb P f A t δ) (hf : ∀ ω T, f ω = .ok T → T.Valid ∧ T.shape = A.shape ∧ T.Pos) (a : RankArg)
    (hl : (askedRanks A.shape a).length + 1 = A.shape.length) (ha : ∀ r ∈ askedRanks A.shape a, 0 < r) (W : TT ℝ)
    (vW : W.Valid) (sW : W.shape = A.shape) (rW : RanksLe W.rank (askedRanks A.shape a)) :
    WithProb P (fun ω => (f ω).andThen fun T => recompress la T (some a)) A
      (((1 + √ ((A.shape.length - 1 : ℕ) : ℝ)) * √ t + √ ((A.shape.length - 1 : ℕ) : ℝ) * √ (distSq A W.toNumpy)) ^ 2) δ := by
  have key : ∀ ω T, f ω = .ok T → ∃ Y, (f ω).andThen (fun T => recompress la T (some a)) = .ok Y ∧
      Truncated A T Y (askedRanks A.shape a) := by
    intro ω T hT
    obtain ⟨vT, sT, pT⟩ := hf ω T hT
    obtain ⟨Y, hY, -, tY⟩ := round_truncated hq hs vT sT pT a hl ha
    exact ⟨Y, by rw [hT]; exact hY, tY⟩
  refine ⟨fun ω => ?_, le_trans (measure_mono ?_) h.prob⟩
  · obtain ⟨T, hT⟩ := h.returns ω
    obtain ⟨Y, hY, -⟩ := key ω T hT
    exact ⟨Y, hY⟩
  · rintro ω ⟨Y, hY, hlt⟩
    obtain ⟨T, hT⟩ := h.returns ω
    obtain ⟨Y', hY', tY⟩ := key ω T hT
    obtain rfl : Y = Y' := by
      have := hY.symm.trans hY'
      injection this
    refine ⟨T, hT, lt_of_not_ge fun hle => absurd hlt (not_lt.2 ?_)⟩
    have h1 := tY.near W vW sW rW
    have h2 := mul_le_mul_of_nonneg_left (Real.sqrt_le_sqrt hle)
      (by positivity : (0 : ℝ) ≤ 1 + √ ((A.shape.length - 1 : ℕ) : ℝ))
    have h3 := h1.trans (add_le_add_left h2 _)
    rw [← Real.sq_sqrt (distSq_nonneg A Y.toNumpy)]
    exact pow_le_pow_left₀ (Real.sqrt_nonneg _) h3 2

/-- **C88, the number that is recorded.** `experiment_hmt_sketch` of a dense array that is not zero, with `DenseGaussianDRM`
and recompression: with probability at least `1 - δ`, the relative error that is recorded, times the norm of the array, is
at most `(1 + √(d-1))` times the bound of C81 plus `√(d-1)` times the distance to any tensor train with the recompressed
ranks. -/
theorem C88_hmt_prob (hg : GaussianDraws P g) (env : Env ℝ) (hE : LstsqContract env) (hQ : QRContract env) {la : LinAlg}
    (hq : la.QROk) (hs : la.SVDOk) (X : ND ℝ) (rank : RankArg) (hd : 2 ≤ X.shape.length)
    (hl : (ranksOf rank X.shape.length).length = X.shape.length - 1)
    (p1 : ∀ n ∈ X.shape, 0 < n) (p2 : ∀ r ∈ ranksOf rank X.shape.length, 0 < r) (h0 : normSq X ≠ 0)
    (S : ℕ → List ℝ) (hS : ∀ mu < X.shape.length - 1, Spec.IsSingularValues X (mu + 1) (S mu)) (k : ℕ → ℕ)
    (hk : ∀ mu < X.shape.length - 1, k mu + 2 ≤ (trimRanks X.shape (ranksOf rank X.shape.length)).getD mu 0 ∨
      ((S mu).length ≤ k mu ∧ k mu ≤ (trimRanks X.shape (ranksOf rank X.shape.length)).getD mu 0))
    {δ : ℝ} (hδ : 0 < δ) (a : RankArg) (al : (askedRanks X.shape a).length + 1 = X.shape.length)
    (ha : ∀ r ∈ askedRanks X.shape a, 0 < r) (W : TT ℝ)
    (vW : W.Valid) (sW : W.shape = X.shape) (rW : RanksLe W.rank (askedRanks X.shape a)) :
    (∀ ω, ∃ e, experimentHmtSketch (env.withDraws (g ω)) la (.leaf (.dense X)) rank (some .denseGaussian) none (some a)
      = .ok (.val e)) ∧
    P {ω | ∃ e, experimentHmtSketch (env.withDraws (g ω)) la (.leaf (.dense X)) rank (some .denseGaussian) none (some a)
        = .ok (.val e) ∧
      (1 + √ ((X.shape.length - 1 : ℕ) : ℝ)) * √ ((∑ mu ∈ range (X.shape.length - 1),
        (1 + (k mu : ℝ) / (((trimRanks X.shape (ranksOf rank X.shape.length)).getD mu 0 : ℝ) - k mu - 1))
          * ∑ t ∈ Ico (k mu) (S mu).length, (S mu).getD t 0 ^ 2) / δ)
        + √ ((X.shape.length - 1 : ℕ) : ℝ) * √ (distSq X W.toNumpy) < e * √ (normSq X)} ≤ ENNReal.ofReal δ := by
  have hw := C81_hmt_dense hg env hE hQ X rank none hd hl p1 p2 (by decide) S hS k hk hδ
  have hf : ∀ ω T, hmtSketch (env.withDraws (g ω)) (.leaf (.dense X)) rank none (some .denseGaussian) = .ok T →
      T.Valid ∧ T.shape = X.shape ∧ T.Pos := by
    intro ω T hT
    obtain ⟨vT, sT, rT, -⟩ := C42_form_dense (env.withDraws (g ω)) hE hQ X rank none (some .denseGaussian) none false T
      (by simp) hd hT
    refine ⟨vT, sT, by rw [sT]; exact p1, ?_⟩
    rw [rT rfl]
    exact trim_pos (by omega) p1 p2
  have hp := C88_prob hq hs hw hf a al ha W vW sW rW
  have sY : ∀ ω Y, (hmtSketch (env.withDraws (g ω)) (.leaf (.dense X)) rank none (some .denseGaussian)).andThen
      (fun T => recompress la T (some a)) = .ok Y →
      experimentHmtSketch (env.withDraws (g ω)) la (.leaf (.dense X)) rank (some .denseGaussian) none (some a)
        = .ok (.val (√ (distSq X Y.toNumpy) / √ (normSq X))) := by
    intro ω Y hY
    obtain ⟨T, hT⟩ := hw.returns ω
    obtain ⟨vT, sT, pT⟩ := hf ω T hT
    obtain ⟨Y', hY', pY', tY'⟩ := recompress_cases hq hs (X := .leaf (.dense X)) trivial vT sT pT a al ha
    have e : experimentHmtSketch (env.withDraws (g ω)) la (.leaf (.dense X)) rank (some .denseGaussian) none (some a)
        = reportedError (env.withDraws (g ω)) la none (.atom (.leaf (.tt Y'))) (.leaf (.dense X)) := by
      unfold experimentHmtSketch
      rw [hT]
      show (recompress la T (some a)).andThen _ = _
      rw [hY']
      rfl
    obtain rfl : Y = Y' := by
      rw [hT] at hY
      have := hY.symm.trans hY'
      injection this
    rw [e, reported_tt hq (X := .leaf (.dense X)) trivial trivial trivial hd tY'.valid tY'.shape pY']
    have hn : √ (normSq X) ≠ 0 := by
      rw [Real.sqrt_ne_zero (normSq_nonneg X)]
      exact h0
    show Except.ok (errorSpec Y.toNumpy X true false) = _
    unfold errorSpec
    rw [if_neg (fun h => hn h.2), dist_comm (A := X) ((TT.toNumpy_shape tY'.valid).trans tY'.shape)]
    simp
  refine ⟨fun ω => ?_, le_trans (measure_mono ?_) hp.prob⟩
  · obtain ⟨Y, hY⟩ := hp.returns ω
    exact ⟨_, sY ω Y hY⟩
  · rintro ω ⟨e, he, hlt⟩
    obtain ⟨Y, hY⟩ := hp.returns ω
    have h1 := he.symm.trans (sY ω Y hY)
    injection h1 with h1
    injection h1 with h1
    have hn : 0 < √ (normSq X) := Real.sqrt_pos.2 (lt_of_le_of_ne (normSq_nonneg X) (Ne.symm h0))
    rw [h1, div_mul_cancel₀ _ hn.ne'] at hlt
    refine ⟨Y, hY, ?_⟩
    rw [← Real.sq_sqrt (distSq_nonneg X Y.toNumpy)]
    exact pow_lt_pow_left₀ hlt (by positivity) two_ne_zero

/-! ### Examples -/

/-- `experiment_stream_sketch` of a sparse `2 × 3 × 2` tensor, with recompression rank 1. -/
example : ∃ S, streamSketch env61 (.leaf (.sparse x61)) (.int 1) (.int 2) {} = .ok S ∧
    (∀ r ∈ S.leftRank, 0 < r) ∧ (∀ r ∈ S.rightRank, 0 < r) ∧
    (∃ Y : TT ℝ, (∀ r ∈ Y.rank, r ≤ 1) ∧ experimentStreamSketch env61 laChoice (.leaf (.sparse x61)) (.int 1) (.int 2)
      none none none (some (.int 1)) = .ok (errorSpec Y.toNumpy x61.toNumpy true false)) ∧
    experimentStreamSketch env61 laChoice (.leaf (.sparse x61)) (.int 1) (.int 2)
      none none none (some (.int 0)) = .error .assertionError := by
  obtain ⟨S, h, hl, hr⟩ : ∃ S, streamSketch env61 (.leaf (.sparse x61)) (.int 1) (.int 2) {} = .ok S ∧
    S.leftRank = [1, 1] ∧ S.rightRank = [2, 2] := ⟨_, rfl, rfl, rfl⟩
  have pl : ∀ r ∈ S.leftRank, 0 < r := by rw [hl]; simp
  have pr : ∀ r ∈ S.rightRank, 0 < r := by rw [hr]; simp
  have hd : Tensor.Distinct (.leaf (.sparse x61)) := by simp [Tensor.Distinct, Leaf.Distinct, Sparse.Distinct, x61]
  have hp : ∀ n ∈ (Tensor.leaf (.sparse x61)).shape, 0 < n := by simp [Tensor.shape, Leaf.shape, x61]
  obtain ⟨T, -, -, -, -, -, h3⟩ := C88_stream env61 (pinvChoice_contract rfl).lstsq laChoice_qr laChoice_svd _ _ _ none none S
    x61_valid trivial hd (by decide) h trivial hp pl pr
  obtain ⟨Y, tY, h4, -⟩ := h3 1 one_pos
  refine ⟨S, h, pl, pr, ⟨Y, fun r hr => ?_, h4⟩, ?_⟩
  · obtain ⟨k, hk, rfl⟩ := List.getElem_of_mem hr
    have h5 := tY.rank.2 k hk
    have h6 := tY.rank.1
    rw [List.getD_eq_getElem _ _ hk, List.getD_eq_getElem _ _ (by omega), List.getElem_replicate] at h5
    exact h5
  · exact (C88_zero env61 (pinvChoice_contract rfl).lstsq laChoice_qr laChoice_svd _ _ _ none none S
      x61_valid trivial (by decide) h hp pl pr none).1

/-- `experiment_tt_svd` and `experiment_tt_round` with rank 1. -/
example : (∃ Y : TT ℝ, RanksLe Y.rank [1, 1] ∧ experimentTTSvd env61 laChoice (.leaf (.tt x9)) (some (.int 1)) none
      = .ok (errorSpec Y.toNumpy x9.toNumpy true false)) ∧
    ∃ Y : TT ℝ, RanksLe Y.rank [1, 1] ∧ experimentTTRound env61 laChoice x9 (some (.int 1)) none
      = .ok (errorSpec Y.toNumpy x9.toNumpy true false) := by
  constructor
  · obtain ⟨Y, -, -, h1, h2, -⟩ := C88_tt_svd env61 laChoice_qr laChoice_svdThin (.leaf (.tt x9)) x9_valid trivial x9_pos
      (by decide) x9_pos.1 (some (.int 1)) rfl (by decide)
    exact ⟨Y, h1, h2⟩
  · obtain ⟨Y, -, -, h1, h2, -⟩ := C88_tt_round env61 laChoice_qr laChoice_svd x9 x9_valid x9_pos (by decide) (.int 1) rfl
      (by decide)
    exact ⟨Y, h1, h2⟩

/-- a tensor train of rank one -/
def w88 : TT ℝ := ⟨[ND.ofFn [1, 2, 1] fun _ => 1, ND.ofFn [1, 4, 1] fun _ => 2, ND.ofFn [1, 4, 1] fun _ => 3]⟩

theorem t88 (ω : Draw → ℝ) (T : TT ℝ)
    (h : hmtSketch (env61.withDraws ω) (.leaf (.dense x72)) (.int 3) (some 7) (some .denseGaussian) = .ok T) :
    T.Valid ∧ T.shape = x72.shape ∧ T.Pos := by
  obtain ⟨vT, sT, rT, -⟩ := C42_form_dense (env61.withDraws ω) (pinvChoice_contract rfl).lstsq (qrChoice_contract rfl) x72
    (.int 3) (some 7) (some .denseGaussian) none false T (by simp) (by decide) h
  refine ⟨vT, sT, by rw [sT]; decide, ?_⟩
  rw [rT rfl]
  exact trim_pos (by decide) (by decide) (by decide)

/-- The hypotheses of `C88_prob`: the `2 × 4 × 4` array of C72, sketched with rank 3, recompressed to
rank 1. -/
example : ∃ t, WithProb normalDraws (fun ω => (hmtSketch (env61.withDraws ω) (.leaf (.dense x72)) (.int 3) (some 7)
    (some .denseGaussian)).andThen fun T => recompress laChoice T (some (.int 1))) x72
      (((1 + √ ((2 : ℕ) : ℝ)) * √ t + √ ((2 : ℕ) : ℝ) * √ (distSq x72 w88.toNumpy)) ^ 2) 2⁻¹ :=
  ⟨_, C88_prob laChoice_qr laChoice_svd (C81 (C72_dense normalDraws_gaussian env61 (pinvChoice_contract rfl).lstsq
    (qrChoice_contract rfl) x72 (.int 3) (some 7) (by decide) rfl
    (by decide) (by decide) (by decide) (fun mu => [x72, b72].getD mu x72) (fun mu => [2, 1].getD mu 0)
    (two_cases x72_one b72_over))
    (sum_nonneg fun mu hmu => oversampled_term (two_cases (p := fun mu => Oversampled x72 ([x72, b72].getD mu x72) mu
      ([2, 1].getD mu 0) (([2, 3] : List ℕ).getD mu 0)) x72_one b72_over mu (mem_range.1 hmu))) (by norm_num)) t88
    (.int 1) rfl (by decide) w88 ⟨by simp [w88], 2, 1, rfl, 4, 1, rfl, 4, 1, rfl, rfl⟩ rfl
    ⟨rfl, fun i hi => le_of_eq rfl⟩⟩

end TTS.Props
