import Verif.Spec.FloatSketchAll
import Verif.Proofs.FloatApprox
import Verif.Proofs.TuckerSketch

/-! The sketch with absolute values, for all formats. -/

namespace TTS
open Finset ND

section
variable {u : ℝ} {env : Env ℝ} {l r : DRM ℝ}

theorem abs_parts_tucker {X : Tucker ℝ} (hl : l.Accepts (.tucker X)) (hr : r.Accepts (.tucker X))
    (hlt : l.transpose = false) (hrt : r.transpose = true) :
    (∀ mu < X.shape.length - 1, aO env l r (.tucker X) mu
      = ND.ofFn [l.rank.getD mu 0, r.rank.reverse.getD mu 0] fun i =>
        omegaSpec X.rank X.abs.core.get (X.abs.absorbLeft (l.absLeftMats env))
          ((X.abs.absorbRight (r.absRightMats env)).misread X.rank) mu (i.getD 0 0) (i.getD 1 0)) ∧
    (∀ mu < X.shape.length, aP env l r (.tucker X) mu
      = ND.ofFn (psiShape X.shape l.rank r.rank.reverse mu) fun i =>
        psiSpec X.rank (X.abs.coreMode mu) (X.abs.absorbLeft (l.absLeftMats env))
          ((X.abs.absorbRight (r.absRightMats env)).misread X.rank) mu (i.getD 0 0) (i.getD 1 0) (i.getD 2 0)) := by
  have l2 := (left_near le_rfl env hl hlt).1
  have r2 := (right_near le_rfl env hr hrt).1
  have hd2 : 2 ≤ X.shape.length := hl.dim
  have hV : X.abs.Valid := Tucker.abs_valid hl.valid
  have hrl : X.rank.length = X.shape.length := by simp [Tucker.rank, Tucker.shape]
  have hsh : X.shape = r.shape := hr.shape
  have eS := Tucker.abs_shape X
  have eR := Tucker.abs_rank X
  have hL : ∀ k < X.shape.length - 1, RowsL X.abs (k + 1) (l.rank.getD k 0)
      (X.abs.absorbLeft (l.absLeftMats env) (k + 1))
      ((l.absD env (.tucker X)).getD k (ND.zeros [])) := fun k hk => l2 k hk
  have hR : ∀ mu < X.shape.length - 1, RowsR X.abs (mu + 1) (r.rank.reverse.getD mu 0)
      ((X.abs.absorbRight (r.absRightMats env)).misread X.rank (mu + 1))
      ((r.absD env (.tucker X)).getD mu (ND.zeros [])) := by
    intro mu hmu
    have h0 := r2 mu hmu
    have h1 := right_tucker_rows (X := X.abs) (k := mu + 1) (r := r.rank.reverse.getD mu 0)
      (E := r.absEntry env (r.shape.length - 1 - (mu + 1)))
      (M := (r.absD env (.tucker X)).getD mu (ND.zeros [])) (by rw [eS]; omega) (by rw [eS]; exact h0)
    have e : (X.abs.absorbRight (r.absRightMats env)).misread X.rank (mu + 1)
        = fun t b => sumIdx (X.abs.shape.drop (mu + 1)) fun q =>
        facProd (X.abs.factors.drop (mu + 1))
          (unravel (X.abs.rank.drop (mu + 1)).reverse (ravel (X.abs.rank.drop (mu + 1)) t)).reverse q
          * r.absEntry env (r.shape.length - 1 - (mu + 1)) q.reverse b := by
      funext t b
      unfold Mats.misread Tucker.absorbRight DRM.absRightMats
      simp only [if_neg (show ¬ mu + 1 = r.shape.length by rw [← hsh]; omega), eR]
    rw [e]; exact h1
  refine ⟨fun mu hmu => ?_, fun mu hmu => ?_⟩
  · have h := omega_rows hV (by rw [eR]; omega) (hL mu hmu) (hR mu hmu)
    rw [eR] at h
    exact h
  · have h := psi_rows (X := X.abs) (mu := mu) (lr := if 0 < mu then l.rank.getD (mu - 1) 0 else 1)
      (rr := if mu < X.shape.length - 1 then r.rank.reverse.getD mu 0 else 1)
      (lo := loAt (l.absD env (.tucker X)) mu) (ro := roAt (r.absD env (.tucker X)) X.shape.length mu)
      (P := X.abs.absorbLeft (l.absLeftMats env) mu)
      (Q := (X.abs.absorbRight (r.absRightMats env)).misread X.rank (mu + 1))
      hV (by rw [eR]; omega) (by rw [eR]; omega) ?_ ?_ (psiShape X.shape l.rank r.rank.reverse mu)
    · unfold aP
      show (match psiLeaf (.tucker X.abs) mu (psiShape X.shape l.rank r.rank.reverse mu) (loAt (l.absD env (.tucker X)) mu)
        (roAt (r.absD env (.tucker X)) X.shape.length mu) with
        | .ok P => P
        | .error _ => ND.zeros []) = _
      rw [h]
      rw [eR, eS]
      rfl
    · rcases Nat.eq_zero_or_pos mu with h0 | h0
      · left; subst h0
        refine ⟨rfl, rfl, rfl, ?_⟩
        intro a
        simp only [Tucker.absorbLeft, List.take_zero, sumIdx_nil, DRM.absLeftMats, if_true, mul_one]
        rfl
      · right
        refine ⟨h0, _, if_pos h0, ?_⟩
        have := hL (mu - 1) (by omega)
        rw [show mu - 1 + 1 = mu by omega] at this
        rwa [if_pos h0]
    · rw [eR]
      by_cases h1 : mu < X.shape.length - 1
      · right
        refine ⟨by omega, _, if_pos h1, ?_⟩
        rw [if_pos h1]
        exact hR mu h1
      · left
        have e : mu + 1 = X.shape.length := by omega
        refine ⟨by omega, if_neg h1, if_neg h1, ?_⟩
        intro b
        have h4 : X.rank.drop X.shape.length = [] := by simp [Tucker.shape, Tucker.rank]
        have h3 : X.abs.factors.drop X.shape.length = [] := by simp [Tucker.shape, Tucker.abs]
        simp only [Mats.misread, Tucker.absorbRight, e, eS, List.drop_length, sumIdx_nil, h3, h4, DRM.absRightMats, ← hsh,
          if_true, mul_one]
        rfl

/-- one tensor of any format -/
theorem absSum_one {t : Leaf ℝ} {sh : List ℕ} (hsh : t.shape = sh) (hl : l.Accepts t) (hr : r.Accepts t)
    (hlt : l.transpose = false) (hrt : r.transpose = true) (hd : t.Distinct) :
    absSum env l r sh [t] = t.absSketchOf env l r l.rank r.rank.reverse := by
  subst hsh
  have gen : ∀ (R : Mats ℝ), (∀ mu < t.shape.length - 1, IsContrR t.abs (mu + 1) (r.rank.reverse.getD mu 0)
      (R (mu + 1)) ((r.absD env t).getD mu (ND.zeros []))) → (R t.shape.length = fun _ _ => 1) →
      absSum env l r t.shape [t] = sketchOf t.shape t.abs.toNumpy.get (l.absLeftMats env) R l.rank r.rank.reverse := by
    intro R h1 h2
    refine absSum_spec (X := .leaf t) hl.valid hl.tensor hr.tensor hlt hd R (fun s hs => ?_) h2
    have e : s = t := by simpa [Tensor.summands] using hs
    subst e
    exact h1
  have gen' : t.RightExact → absSum env l r t.shape [t]
      = sketchOf t.shape t.abs.toNumpy.get (l.absLeftMats env) (r.absRightMats env) l.rank r.rank.reverse :=
    fun hx => gen _ (abs_right_spec hr hrt hx) (by funext q b; simp [DRM.absRightMats, hr.shape])
  cases t with
  | sparse X => exact gen' trivial
  | tt X => exact gen' trivial
  | cp X => exact gen' trivial
  | dense X =>
    rw [gen _ (abs_right_spec_dense hr hrt) (by funext q b; simp [DRM.absRightMatsDense, hr.shape])]
    have e : (Leaf.dense X).abs.toNumpy.get = fun i => |X.get i| := by
      funext i
      show X.abs.get i = _
      by_cases h : InR X.shape i
      · exact ND.ofFn_get h
      · rw [ND.supp _ _ (by exact h), ND.supp _ _ (by exact h), abs_zero]
    rw [e]
    rfl
  | tucker X =>
    obtain ⟨h1, h2⟩ := abs_parts_tucker (env := env) hl hr hlt hrt
    obtain ⟨k1, k2⟩ := accepts_ranks hl hr
    have k2' : r.rank.reverse.length = X.shape.length - 1 := k2
    have e : absSum env l r X.shape [.tucker X] = contOf X.shape l.rank r.rank.reverse
        (fun mu i => psiSpec X.rank (X.abs.coreMode mu) (X.abs.absorbLeft (l.absLeftMats env))
          ((X.abs.absorbRight (r.absRightMats env)).misread X.rank) mu (i.getD 0 0) (i.getD 1 0) (i.getD 2 0))
        (fun mu i => omegaSpec X.rank X.abs.core.get (X.abs.absorbLeft (l.absLeftMats env))
          ((X.abs.absorbRight (r.absRightMats env)).misread X.rank) mu (i.getD 0 0) (i.getD 1 0)) := by
      refine contOf_congr (fun mu i hmu hi => ?_) fun mu i hmu hi => ?_
      · simp only [List.map_cons, List.map_nil, List.sum_cons, List.sum_nil, add_zero]
        rw [h2 mu hmu, ND.ofFn_get hi]
      · simp only [List.map_cons, List.map_nil, List.sum_cons, List.sum_nil, add_zero]
        rw [h1 mu hmu, ND.ofFn_get hi]
    show absSum env l r X.shape [.tucker X] = _
    rw [e]
    unfold contOf Leaf.absSketchOf Tucker.sketchOf
    simp only [Tucker.abs_shape, Tucker.abs_rank]
    congr 1
    refine List.map_congr_left fun mu hmu => ?_
    rw [psiShape_eq k2' (List.mem_range.1 hmu)]

theorem absSum_isSumOf {sh : List ℕ} {ts : List (Leaf ℝ)} (hl : ∀ t ∈ ts, l.Accepts t ∧ r.Accepts t ∧ t.shape = sh ∧ t.Distinct)
    (hlt : l.transpose = false) (hrt : r.transpose = true) :
    (absSum env l r sh ts).IsSumOf (ts.map (Leaf.absSketchOf env l r l.rank r.rank.reverse)) := by
  have e : ts.map (Leaf.absSketchOf env l r l.rank r.rank.reverse) = ts.map fun t => absSum env l r sh [t] :=
    List.map_congr_left fun t ht => by
      obtain ⟨h1, h2, h3, h4⟩ := hl t ht
      exact (absSum_one h3 h1 h2 hlt hrt h4).symm
  rw [e]
  have og : ∀ (sh i : List ℕ) (f : List ℕ → ℝ), (ND.ofFn sh f).get i = if InR sh i then f i else 0 := by
    intro sh i f
    by_cases h : InR sh i
    · rw [if_pos h, ND.ofFn_get h]
    · rw [if_neg h]; exact ND.supp _ _ h
  refine ⟨fun mu hmu i => ?_, fun mu hmu i => ?_⟩
  · have hmu' : mu < sh.length := by simpa [absSum, contOf] using hmu
    have ep : ∀ ts, (absSum env l r sh ts).psi.getD mu (ND.zeros []) = ND.ofFn (psiShape sh l.rank r.rank.reverse mu)
        fun i => (ts.map fun t => (aP env l r t mu).get i).sum := fun ts => getD_map_range _ _ _ _ hmu'
    rw [ep, List.map_map, og]
    have : ∀ t, ((fun c : Container ℝ => (c.psi.getD mu (ND.zeros [])).get i) ∘ fun t => absSum env l r sh [t]) t
        = if InR (psiShape sh l.rank r.rank.reverse mu) i then (aP env l r t mu).get i else 0 := by
      intro t
      show ((absSum env l r sh [t]).psi.getD mu (ND.zeros [])).get i = _
      rw [ep, og]; simp
    rw [List.map_congr_left fun t _ => this t]
    split <;> simp
  · have hmu' : mu < sh.length - 1 := by simpa [absSum, contOf] using hmu
    have ep : ∀ ts, (absSum env l r sh ts).omega.getD mu (ND.zeros []) = ND.ofFn [l.rank.getD mu 0, r.rank.reverse.getD mu 0]
        fun i => (ts.map fun t => (aO env l r t mu).get i).sum := fun ts => getD_map_range _ _ _ _ hmu'
    rw [ep, List.map_map, og]
    have : ∀ t, ((fun c : Container ℝ => (c.omega.getD mu (ND.zeros [])).get i) ∘ fun t => absSum env l r sh [t]) t
        = if InR [l.rank.getD mu 0, r.rank.reverse.getD mu 0] i then (aO env l r t mu).get i else 0 := by
      intro t
      show ((absSum env l r sh [t]).omega.getD mu (ND.zeros [])).get i = _
      rw [ep, og]; simp
    rw [List.map_congr_left fun t _ => this t]
    split <;> simp

end
end TTS
