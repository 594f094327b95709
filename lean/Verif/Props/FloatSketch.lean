import Verif.Proofs.FloatApprox
import Verif.Proofs.FloatSketchExact
import Verif.Props.Float
import Verif.Props.Sketch

/-!
# C86: rounding errors of the streaming sketch

`Spec/Float.lean` states the arithmetic, `Spec/FloatSketch.lean` the numbers of roundings and
`Container.Approx`, `Model/FloatSketch.lean` the programs.
-/

namespace TTS.Props

open Finset TTS.Spec

/-- **C86.** Whatever the order of the operations and the individual rounding errors: the sketch of a
tensor (any format, or a lazy sum) with given DRMs has the shape and the ranks of the exact sketch,
and the entries of `Psi[mu]` and `Omega[mu]` differ from those of the exact contractions of the dense
tensor with the matrices of the DRMs by at most `(1+u)^n - 1` times the contractions of the tensor of
absolute values with the matrices of absolute values, `n` being the number of roundings. -/
theorem C86_sketch {u : ℝ} (hu : 0 ≤ u) {env : Env ℝ} {X : Tensor ℝ} {l r : DRM ℝ} (hX : X.Valid)
    (hl : l.AcceptsT X) (hr : r.AcceptsT X) (hlt : l.transpose = false) (hrt : r.transpose = true)
    (hd : X.Distinct) (hx : ∀ t ∈ X.summands, t.RightExact) {C : Container ℝ}
    (h : FlGeneralSketch u env X l r C) :
    C.Approx u (X.psiTotal l r) (X.omegaTotal l r)
      (sketchOf X.shape X.toNumpy.get (l.leftMats env) (r.rightMats env) l.rank r.rank.reverse)
      (sketchOf X.shape X.abs.toNumpy.get (l.absLeftMats env) (r.absRightMats env) l.rank r.rank.reverse) := by
  obtain ⟨hl1, hr1⟩ := hl.ranks hr
  obtain ⟨psi, om, rfl, hn⟩ := flGeneral_cnear hu hl hr hlt hrt h
  have hsh : ∀ t ∈ X.summands, t.shape = X.shape := fun t ht => by
    rw [(hl.each t ht).shape, ← hl.shape]
  have ea := absSum_spec (env := env) hX hl hr hlt hd (r.absRightMats env)
    (fun t ht => by rw [← hsh t ht]; exact abs_right_spec (hr.each t ht) hrt (hx t ht))
    (by funext q b; simp [DRM.absRightMats, hr.shape])
  have ee := streaming_spec (env := env) hX hl hr hlt hrt hd hx
  rw [streaming_sum hl hr hlt hrt] at ee
  injection ee with ee
  rw [← ea, ← ee]
  exact CNear.approx hl1 hr1 hn

/-- **C86 for `stream_sketch`**: the DRMs are those that the call creates (or was given), and the
exact result is the sketch of C33. -/
theorem C86_streaming {u : ℝ} (hu : 0 ≤ u) {env : Env ℝ} {X : Tensor ℝ} {lrank rrank : RankArg}
    {kw : SketchKw ℝ} {S : Sketched ℝ} (hkw : kw.Good) (hX : X.Valid) (hne : X.NonEmpty)
    (hd : 2 ≤ X.shape.length) (hdist : X.Distinct) (hx : ∀ t ∈ X.summands, t.RightExact)
    (h : streamSketch env X lrank rrank kw = .ok S) {C : Container ℝ}
    (hC : FlGeneralSketch u env X S.left S.right C) :
    C.Approx u (X.psiTotal S.left S.right) (X.omegaTotal S.left S.right) S.sketch
      (sketchOf X.shape X.abs.toNumpy.get (S.left.absLeftMats env) (S.right.absRightMats env)
        S.leftRank S.rightRank) := by
  obtain ⟨hS, -⟩ := stream_inv hkw hX hne hd h
  rw [C33_streaming env X lrank rrank kw S hkw hX hne hd hdist hx h]
  exact C86_sketch hu hX hS.accL hS.accR hS.dirL hS.dirR hdist hx hC

/-- **C86 for dense tensors with any number of modes**: as C33, the matrices of the right DRM are
applied in the order of the flattened array. -/
theorem C86_dense {u : ℝ} (hu : 0 ≤ u) {env : Env ℝ} {X : ND ℝ} {lrank rrank : RankArg}
    {kw : SketchKw ℝ} {S : Sketched ℝ} (hkw : kw.Good) (hd : 2 ≤ X.shape.length)
    (h : streamSketch env (.leaf (.dense X)) lrank rrank kw = .ok S) {C : Container ℝ}
    (hC : FlGeneralSketch u env (.leaf (.dense X)) S.left S.right C) :
    C.Approx u (Leaf.psiTotal S.left S.right (.dense X)) (Leaf.omegaTotal S.left S.right (.dense X)) S.sketch
      (sketchOf X.shape X.abs.get (S.left.absLeftMats env) (S.right.absRightMatsDense env)
        S.leftRank S.rightRank) := by
  obtain ⟨hS, -⟩ := stream_inv (X := .leaf (.dense X)) hkw trivial trivial hd h
  obtain ⟨hl1, hr1⟩ := hS.accL.ranks hS.accR
  obtain ⟨psi, om, rfl, hn⟩ := flGeneral_cnear hu hS.accL hS.accR hS.dirL hS.dirR hC
  have ea := absSum_spec (env := env) (X := .leaf (.dense X)) trivial hS.accL hS.accR hS.dirL trivial
    (S.right.absRightMatsDense env)
    (fun t ht => by
      have e : t = .dense X := by simpa [Tensor.summands] using ht
      subst e
      exact abs_right_spec_dense hS.accR.leaf hS.dirR)
    (by funext q b; simp [DRM.absRightMatsDense, hS.accR.shape])
  have ee := hS.sketch
  rw [show S.sketch = contSum env S.left S.right X.shape [.dense X] from ee]
  have ea' : absSum env S.left S.right X.shape [.dense X]
    = sketchOf X.shape X.abs.get (S.left.absLeftMats env) (S.right.absRightMatsDense env)
        S.leftRank S.rightRank := ea
  rw [← ea']
  exact CNear.approx hl1 hr1 hn

theorem list_sum_flatMap {α : Type*} (f : α → List ℝ) : ∀ l : List α,
    (l.flatMap f).sum = (l.map fun a => (f a).sum).sum
  | [] => rfl
  | a :: l => by simp [list_sum_flatMap f l]

/-- **C86, histories.** A sketch of `X` is updated with `Y_1, Y_2, ..` (`sketch = sketch + Y`), all of it
in floating point arithmetic.  The result differs from the exact sketch of the sum of all tensors by
at most `(1+u)^n - 1` times the sketch of the sum of the tensors of absolute values, where `n` is the
largest number of roundings in the sketch of one of the tensors plus the number of updates. -/
theorem C86_history {u : ℝ} (hu : 0 ≤ u) {env : Env ℝ} {X : Tensor ℝ} {Ys : List (Tensor ℝ)} {l r : DRM ℝ}
    (hv : ∀ Y ∈ X :: Ys, Y.Valid ∧ l.AcceptsT Y ∧ r.AcceptsT Y ∧ Y.Distinct ∧ ∀ t ∈ Y.summands, t.RightExact)
    (hlt : l.transpose = false) (hrt : r.transpose = true) {A B : Container ℝ}
    (hA : FlGeneralSketch u env X l r A) (hB : FlHistory u env l r A Ys B) :
    B.Approx u (fun mu => ((X :: Ys).map fun Y => Y.psiTotal l r mu).foldr max 0 + Ys.length)
      (fun mu => ((X :: Ys).map fun Y => Y.omegaTotal l r mu).foldr max 0 + Ys.length)
      (sketchOf X.shape (fun i => ((X :: Ys).map fun Y => Y.toNumpy.get i).sum) (l.leftMats env)
        (r.rightMats env) l.rank r.rank.reverse)
      (sketchOf X.shape (fun i => ((X :: Ys).map fun Y => Y.abs.toNumpy.get i).sum) (l.absLeftMats env)
        (r.absRightMats env) l.rank r.rank.reverse) := by
  obtain ⟨-, hlX, hrX, -, -⟩ := hv X (by simp)
  obtain ⟨hl1, hr1⟩ := hlX.ranks hrX
  have hshY : ∀ Y ∈ X :: Ys, Y.shape = X.shape := fun Y hY => by
    rw [(hv Y hY).2.1.shape, ← hlX.shape]
  obtain ⟨psi, om, rfl, hn⟩ := flGeneral_cnear hu hlX hrX hlt hrt hA
  have hp : ∀ Y ∈ X :: Ys, ∀ mu, Y.psiTotal l r mu ≤ ((X :: Ys).map fun Y => Y.psiTotal l r mu).foldr max 0 :=
    fun Y hY mu => le_foldr_max (List.mem_map_of_mem hY)
  have ho : ∀ Y ∈ X :: Ys, ∀ mu, Y.omegaTotal l r mu ≤ ((X :: Ys).map fun Y => Y.omegaTotal l r mu).foldr max 0 :=
    fun Y hY mu => le_foldr_max (List.mem_map_of_mem hY)
  have := flHistory_cnear (env := env) hu (sh := X.shape)
    (p := fun mu => ((X :: Ys).map fun Y => Y.psiTotal l r mu).foldr max 0)
    (o := fun mu => ((X :: Ys).map fun Y => Y.omegaTotal l r mu).foldr max 0)
    hlt hrt hl1 hr1 Ys X.summands 0 psi om B
    (fun Y hY => ⟨(hv Y (by simp [hY])).2.1, (hv Y (by simp [hY])).2.2.1, hshY Y (by simp [hY]),
      hp Y (by simp [hY]), ho Y (by simp [hY])⟩)
    (hn.mono hu (fun mu => hp X (by simp) mu) fun mu => ho X (by simp) mu) hB
  obtain ⟨psi', om', rfl, hh⟩ := this
  rw [show X.summands ++ Ys.flatMap Tensor.summands = (X :: Ys).flatMap Tensor.summands from
    (List.flatMap_cons ..).symm] at hh
  -- the sum of everything as one lazy sum
  let Z : Tensor ℝ := .sum ⟨X.shape, (X :: Ys).flatMap Tensor.summands⟩
  have hsum : Z.summands = (X :: Ys).flatMap Tensor.summands := rfl
  have hZs : Z.shape = X.shape := rfl
  have each : ∀ t ∈ Z.summands, ∃ Y ∈ X :: Ys, t ∈ Y.summands := fun t ht => by
    obtain ⟨Y, hY, ht⟩ := List.mem_flatMap.1 ht
    exact ⟨Y, hY, ht⟩
  have hlZ : l.AcceptsT Z := ⟨hlX.wf, hlX.shape, fun t ht => by
    obtain ⟨Y, hY, ht⟩ := each t ht; exact (hv Y hY).2.1.each t ht⟩
  have hrZ : r.AcceptsT Z := ⟨hrX.wf, hrX.shape, fun t ht => by
    obtain ⟨Y, hY, ht⟩ := each t ht; exact (hv Y hY).2.2.1.each t ht⟩
  have hshZ : ∀ t ∈ Z.summands, t.shape = X.shape := fun t ht => by
    rw [(hlZ.each t ht).shape, ← hlZ.shape, hZs]
  have hZv : Z.Valid := fun t ht => ⟨(hlZ.each t ht).valid, hshZ t ht⟩
  have hZd : Z.Distinct := fun t ht => by
    obtain ⟨Y, hY, ht⟩ := each t ht; exact Tensor.distinct_each (hv Y hY).2.2.2.1 t ht
  have hZx : ∀ t ∈ Z.summands, t.RightExact := fun t ht => by
    obtain ⟨Y, hY, ht⟩ := each t ht; exact (hv Y hY).2.2.2.2 t ht
  have hget : ∀ i, Z.toNumpy.get i = ((X :: Ys).map fun Y => Y.toNumpy.get i).sum := by
    intro i
    rw [Tensor.get_sum hZv, hsum, List.map_flatMap, list_sum_flatMap]
    congr 1
    refine List.map_congr_left fun Y hY => ?_
    rw [Tensor.get_sum (hv Y hY).1]
  have hgeta : ∀ i, Z.abs.toNumpy.get i = ((X :: Ys).map fun Y => Y.abs.toNumpy.get i).sum := by
    intro i
    rw [Tensor.get_sum (Tensor.abs_valid hZv), Tensor.abs_summands, hsum, List.map_map, List.map_flatMap,
      list_sum_flatMap]
    congr 1
    refine List.map_congr_left fun Y hY => ?_
    rw [Tensor.get_sum (Tensor.abs_valid (hv Y hY).1), Tensor.abs_summands, List.map_map]
  have ea := absSum_spec (env := env) hZv hlZ hrZ hlt hZd (r.absRightMats env)
    (fun t ht => by rw [hZs, ← hshZ t ht]; exact abs_right_spec (hrZ.each t ht) hrt (hZx t ht))
    (by funext q b; simp [DRM.absRightMats, hrZ.shape])
  have ee := streaming_spec (env := env) hZv hlZ hrZ hlt hrt hZd hZx
  rw [streaming_sum hlZ hrZ hlt hrt] at ee
  injection ee with ee
  rw [hZs, hsum] at ea ee
  rw [funext hget] at ee
  rw [funext hgeta] at ea
  rw [← ea, ← ee]
  simp only [Nat.zero_add] at hh
  exact CNear.approx hl1 hr1 hh

/-- Exact arithmetic is one of the possible runs. -/
theorem C86_exact {u : ℝ} (hu : 0 ≤ u) {env : Env ℝ} {X : Tensor ℝ} {l r : DRM ℝ} {S : Container ℝ}
    (h : generalSketch env X (some l) r .streaming = .ok S) : FlGeneralSketch u env X l r S :=
  general_exact hu h

/-- With unit roundoff 0 it is the only one: sketches with the same DRMs are equal. -/
theorem C86_zero {env : Env ℝ} {X : Tensor ℝ} {l r : DRM ℝ} (hX : X.Valid)
    (hl : l.AcceptsT X) (hr : r.AcceptsT X) (hlt : l.transpose = false) (hrt : r.transpose = true)
    (hd : X.Distinct) (hx : ∀ t ∈ X.summands, t.RightExact) (C : Container ℝ) :
    FlGeneralSketch 0 env X l r C ↔ generalSketch env X (some l) r .streaming = .ok C := by
  refine ⟨fun h => ?_, C86_exact le_rfl⟩
  have k := C86_sketch le_rfl hX hl hr hlt hrt hd hx h
  rw [streaming_spec hX hl hr hlt hrt hd hx]
  generalize sketchOf X.shape X.toNumpy.get (l.leftMats env) (r.rightMats env) l.rank r.rank.reverse = S at k
  generalize sketchOf X.shape X.abs.toNumpy.get (l.absLeftMats env) (r.absRightMats env) l.rank
    r.rank.reverse = M at k
  obtain ⟨⟨k1, k2, k3⟩, k4, k5, k6, k7, k8, k9⟩ := k
  have z : ∀ n, flErr 0 n = 0 := fun n => by simp [flErr]
  simp only [z, zero_mul] at k8 k9
  have aux : ∀ (a b : List (ND ℝ)), a.length = b.length →
      (∀ mu, (a.getD mu (ND.zeros [])).shape = (b.getD mu (ND.zeros [])).shape) →
      (∀ mu < b.length, ∀ i, |(a.getD mu (ND.zeros [])).get i - (b.getD mu (ND.zeros [])).get i| ≤ 0) → a = b := by
    intro a b h1 h2 h3
    apply List.ext_getElem h1
    intro n n1 n2
    have h2 := h2 n
    have h3 := h3 n n2
    rw [getD_eq n1, getD_eq n2] at h2 h3
    exact ND.ext' h2 fun i _ => sub_eq_zero.1 (abs_eq_zero.1 (le_antisymm (h3 i) (abs_nonneg _)))
  have e1 := aux _ _ k4 k6 k8
  have e2 := aux _ _ k5 k7 k9
  cases C; cases S
  simp only at k1 k2 k3 e1 e2
  rw [k1, k2, k3, e1, e2]

/-- a lazy sum of a tensor train and a sparse tensor -/
noncomputable def x86 : Tensor ℝ := .sum ⟨[1, 1], [.tt f85, .sparse s85]⟩

/-- the hypotheses of `C86_streaming` and `C86_history` (one update with the sparse tensor): the
calls succeed, and there are floating point runs -/
example {u : ℝ} (hu : 0 ≤ u) (env : Env ℝ) : ∃ (S : Sketched ℝ) (C B : Container ℝ),
    streamSketch env x86 (.int 1) (.int 2) {} = .ok S ∧ FlGeneralSketch u env x86 S.left S.right C ∧
    FlHistory u env S.left S.right C [.leaf (.sparse s85)] B ∧
    (∀ Y ∈ [x86, .leaf (.sparse s85)], Y.Valid ∧ S.left.AcceptsT Y ∧ S.right.AcceptsT Y ∧ Y.Distinct ∧
      ∀ t ∈ Y.summands, t.RightExact) ∧ S.left.transpose = false ∧ S.right.transpose = true ∧
    x86.NonEmpty ∧ 2 ≤ x86.shape.length := by
  have hv : x86.Valid := by
    intro t ht
    simp only [List.mem_cons, List.not_mem_nil, or_false] at ht
    rcases ht with rfl | rfl
    · exact ⟨f85_valid, rfl⟩
    · exact ⟨s85_valid, rfl⟩
  have hd : x86.Distinct := by
    intro t ht
    simp only [List.mem_cons, List.not_mem_nil, or_false] at ht
    rcases ht with rfl | rfl
    · trivial
    · simp [Leaf.Distinct, Sparse.Distinct, s85]
  have hne : x86.NonEmpty := by simp [Tensor.NonEmpty, x86]
  obtain ⟨S, hS⟩ := C33_success env x86 (.int 1) (.int 2) none none none hv le_rfl rfl rfl
    (.inl (by decide)) (by decide) (fun t _ D hD => supports_tt D (by rcases hD with h | h <;> exact h) t)
  obtain ⟨hI, -⟩ := stream_inv (SketchKw.good_none _ _ _) hv hne (by exact le_rfl) hS
  have hs : Leaf.sparse s85 ∈ x86.summands := by simp [x86, Tensor.summands]
  have e1 := streaming_sum (env := env) hI.accL hI.accR hI.dirL hI.dirR
  have a1 := (hI.accL.each _ hs).tensor
  have a2 := (hI.accR.each _ hs).tensor
  have e2 := streaming_sum (env := env) a1 a2 hI.dirL hI.dirR
  refine ⟨S, _, _, hS, C86_exact hu e1, ⟨_, ⟨_, C86_exact hu e2, containerAdd_exact hu _ _⟩, rfl⟩, ?_, hI.dirL,
    hI.dirR, hne, le_rfl⟩
  intro Y hY
  simp only [List.mem_cons, List.not_mem_nil, or_false] at hY
  rcases hY with rfl | rfl
  · refine ⟨hv, hI.accL, hI.accR, hd, fun t ht => ?_⟩
    simp only [x86, Tensor.summands, List.mem_cons, List.not_mem_nil, or_false] at ht
    rcases ht with rfl | rfl <;> trivial
  · refine ⟨s85_valid, a1, a2, show (Leaf.sparse s85).Distinct from hd (.sparse s85) (by simp), fun t ht => ?_⟩
    simp only [Tensor.summands, List.mem_cons, List.not_mem_nil, or_false] at ht
    subst ht; trivial

end TTS.Props
