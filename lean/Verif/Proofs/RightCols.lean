import Verif.Spec.RightCols
import Verif.Props.TuckerSketch

/-! The sketch of a tensor of any format in terms of its sketched unfoldings. -/

namespace TTS

open Finset

variable {K : Type*} [CommRing K]

theorem psiSpec_cols (sh : List ℕ) (f : List ℕ → K) (L R : Mats K) (mu a j b : ℕ) :
    psiSpec sh f L R mu a j b = sumIdx (sh.take mu) fun p => L mu p a *
      sumIdx (sh.drop (mu + 1)) fun q => f ((p ++ [j]) ++ q) * R (mu + 1) q b := by
  unfold psiSpec
  refine sumIdx_congr fun p _ => ?_
  rw [mul_sumIdx]
  refine sumIdx_congr fun q _ => ?_
  rw [List.append_assoc, List.singleton_append, mul_assoc]

theorem omegaSpec_cols (sh : List ℕ) (f : List ℕ → K) (L R : Mats K) (mu a b : ℕ) :
    omegaSpec sh f L R mu a b = colsOmega sh L (fun k p b => sumIdx (sh.drop k) fun q => f (p ++ q) * R k q b)
      (mu + 1) a b := by
  unfold omegaSpec colsOmega
  refine sumIdx_congr fun p _ => ?_
  rw [mul_sumIdx]
  exact sumIdx_congr fun q _ => by rw [mul_assoc]

theorem tucker_psi_cols {X : Tucker K} {mu : ℕ} (hmu : mu < X.shape.length) (L R : Mats K) (a j b : ℕ)
    (hj : j < X.shape.getD mu 0) :
    psiSpec X.rank (X.coreMode mu) (X.absorbLeft L) ((X.absorbRight R).misread X.rank) mu a j b
      = sumIdx (X.shape.take mu) fun p => L mu p a * X.rightContr R (mu + 1) (p ++ [j]) b := by
  have hrl : X.rank.length = X.factors.length := by simp [Tucker.rank]
  have hsl : X.shape.length = X.factors.length := by simp [Tucker.shape]
  have hr : ∀ p, p.length = mu → X.rightContr R (mu + 1) (p ++ [j]) b
      = sumIdx (X.rank.take mu) fun s => facProd (X.factors.take mu) s p *
        sumIdx (X.rank.drop (mu + 1)) fun t => X.coreMode mu (s ++ j :: t)
          * (X.absorbRight R).misread X.rank (mu + 1) t b := by
    intro p hp
    unfold Tucker.rightContr
    rw [take_succ_getD (by omega) 0, take_succ_getD (l := X.factors) (by omega) (ND.zeros []), sumIdx_append]
    refine sumIdx_congr fun s hs => ?_
    have hsl' : s.length = mu := by rw [hs.length, List.length_take]; omega
    rw [sumIdx_cons]
    simp only [sumIdx_nil]
    have e1 : ∀ u, facProd (X.factors.take mu ++ [X.factors.getD mu (ND.zeros [])]) (s ++ [u]) (p ++ [j])
        = facProd (X.factors.take mu) s p * (X.factors.getD mu (ND.zeros [])).get [u, j] := by
      intro u
      rw [facProd_append _ _ _ _ _ _ (by simp; omega) (by simp; omega)]
      simp [facProd]
    simp only [e1]
    rw [sum_congr rfl fun u _ => mul_assoc _ _ _, ← mul_sum]
    congr 1
    rw [sum_congr rfl fun u _ => mul_sumIdx .., ← sumIdx_sum]
    refine sumIdx_congr fun t _ => ?_
    unfold Tucker.coreMode
    rw [sum_mul]
    refine sum_congr rfl fun u _ => ?_
    have e2 : (s ++ j :: t).set mu u = s ++ u :: t := by
      rw [List.set_append_right _ _ (by omega), hsl', Nat.sub_self]; rfl
    have e3 : (s ++ j :: t).getD mu 0 = j := by
      rw [List.getD_append_right _ _ _ _ (by omega), hsl', Nat.sub_self]; rfl
    rw [e2, e3, List.append_assoc, List.singleton_append]
    ring
  unfold psiSpec Tucker.absorbLeft
  have e : ∀ p, InR (X.shape.take mu) p → L mu p a * X.rightContr R (mu + 1) (p ++ [j]) b
      = sumIdx (X.rank.take mu) fun s => sumIdx (X.rank.drop (mu + 1)) fun t =>
        facProd (X.factors.take mu) s p * L mu p a * X.coreMode mu (s ++ j :: t)
          * (X.absorbRight R).misread X.rank (mu + 1) t b := by
    intro p hp
    have hpl : p.length = mu := by rw [hp.length, List.length_take]; omega
    rw [hr p hpl, mul_sumIdx]
    refine sumIdx_congr fun s _ => ?_
    rw [mul_sumIdx, mul_sumIdx]
    exact sumIdx_congr fun t _ => by ring
  rw [sumIdx_congr e, sumIdx_comm (X.shape.take mu)]
  refine sumIdx_congr fun s _ => ?_
  rw [sumIdx_comm (X.shape.take mu)]
  refine sumIdx_congr fun t _ => ?_
  rw [sumIdx_mul, sumIdx_mul]

theorem tucker_omega_cols (X : Tucker K) (L R : Mats K) (mu a b : ℕ) :
    omegaSpec X.rank X.core.get (X.absorbLeft L) ((X.absorbRight R).misread X.rank) mu a b
      = colsOmega X.shape L (X.rightContr R) (mu + 1) a b := by
  unfold omegaSpec colsOmega Tucker.absorbLeft Tucker.rightContr
  have e : ∀ p, (L (mu + 1) p a * sumIdx (X.rank.take (mu + 1)) fun s => facProd (X.factors.take (mu + 1)) s p *
        sumIdx (X.rank.drop (mu + 1)) fun t => X.core.get (s ++ t) * (X.absorbRight R).misread X.rank (mu + 1) t b)
      = sumIdx (X.rank.take (mu + 1)) fun s => sumIdx (X.rank.drop (mu + 1)) fun t =>
        facProd (X.factors.take (mu + 1)) s p * L (mu + 1) p a * X.core.get (s ++ t)
          * (X.absorbRight R).misread X.rank (mu + 1) t b := by
    intro p
    rw [mul_sumIdx]
    refine sumIdx_congr fun s _ => ?_
    rw [mul_sumIdx, mul_sumIdx]
    exact sumIdx_congr fun t _ => by ring
  rw [sumIdx_congr fun p _ => e p, sumIdx_comm (X.shape.take (mu + 1))]
  refine sumIdx_congr fun s _ => ?_
  rw [sumIdx_comm (X.shape.take (mu + 1))]
  refine sumIdx_congr fun t _ => ?_
  rw [sumIdx_mul, sumIdx_mul]

theorem leaf_psi_cols (env : Env K) (l r : DRM K) {lr rr : List ℕ} (t : Leaf K) {mu a j b : ℕ} (hmu : mu < t.shape.length)
    (ha : a < (1 :: lr).getD mu 0) (hj : j < t.shape.getD mu 0) (hb : b < (rr ++ [1]).getD mu 0) :
    ((t.sketchOf env l r lr rr).psi.getD mu (ND.zeros [])).get [a, j, b]
      = sumIdx (t.shape.take mu) fun p => l.leftMats env mu p a * t.rightCols env r (mu + 1) (p ++ [j]) b := by
  have hi : InR [(1 :: lr).getD mu 0, t.shape.getD mu 0, (rr ++ [1]).getD mu 0] [a, j, b] := ⟨ha, hj, hb, trivial⟩
  have gen : ∀ (sh : List ℕ) (f : List ℕ → K) (R : Mats K), mu < sh.length →
      InR [(1 :: lr).getD mu 0, sh.getD mu 0, (rr ++ [1]).getD mu 0] [a, j, b] →
      ((sketchOf sh f (l.leftMats env) R lr rr).psi.getD mu (ND.zeros [])).get [a, j, b]
        = psiSpec sh f (l.leftMats env) R mu a j b := by
    intro sh f R h hi
    unfold sketchOf
    dsimp only
    rw [getD_map_range _ _ _ _ h, ND.ofFn_get hi]
    rfl
  cases t with
  | dense X => exact (gen X.shape X.get _ hmu hi).trans (psiSpec_cols ..)
  | tucker X =>
    refine Eq.trans ?_ (tucker_psi_cols hmu (l.leftMats env) (r.rightMats env) a j b hj)
    show ((Tucker.sketchOf X _ _ lr rr).psi.getD mu (ND.zeros [])).get [a, j, b] = _
    unfold Tucker.sketchOf
    dsimp only
    rw [getD_map_range _ _ _ _ (show mu < X.shape.length from hmu)]
    exact ND.ofFn_get hi
  | sparse X => exact (gen (Leaf.sparse X).shape (Leaf.sparse X).toNumpy.get _ hmu hi).trans (psiSpec_cols ..)
  | tt X => exact (gen (Leaf.tt X).shape (Leaf.tt X).toNumpy.get _ hmu hi).trans (psiSpec_cols ..)
  | cp X => exact (gen (Leaf.cp X).shape (Leaf.cp X).toNumpy.get _ hmu hi).trans (psiSpec_cols ..)

theorem leaf_omega_cols (env : Env K) (l r : DRM K) {lr rr : List ℕ} (t : Leaf K) {mu a b : ℕ}
    (hmu : mu < t.shape.length - 1) (ha : a < lr.getD mu 0) (hb : b < rr.getD mu 0) :
    ((t.sketchOf env l r lr rr).omega.getD mu (ND.zeros [])).get [a, b]
      = colsOmega t.shape (l.leftMats env) (fun k p b => t.rightCols env r k p b) (mu + 1) a b := by
  have hi : InR [lr.getD mu 0, rr.getD mu 0] [a, b] := ⟨ha, hb, trivial⟩
  cases t with
  | dense X => exact (sketchOf_omega_get hmu ha hb).trans (omegaSpec_cols ..)
  | tucker X =>
    refine Eq.trans ?_ (tucker_omega_cols X (l.leftMats env) (r.rightMats env) mu a b)
    show ((Tucker.sketchOf X _ _ lr rr).omega.getD mu (ND.zeros [])).get [a, b] = _
    unfold Tucker.sketchOf
    dsimp only
    rw [getD_map_range _ _ _ _ (show mu < X.shape.length - 1 from hmu)]
    exact ND.ofFn_get hi
  | sparse X => exact (sketchOf_omega_get (sh := (Leaf.sparse X).shape) hmu ha hb).trans (omegaSpec_cols ..)
  | tt X => exact (sketchOf_omega_get (sh := (Leaf.tt X).shape) hmu ha hb).trans (omegaSpec_cols ..)
  | cp X => exact (sketchOf_omega_get (sh := (Leaf.cp X).shape) hmu ha hb).trans (omegaSpec_cols ..)

theorem tensor_psi_cols {env : Env K} {X : Tensor K} {l r : DRM K} (hl : l.AcceptsT X) (hr : r.AcceptsT X)
    (hlt : l.transpose = false) (hrt : r.transpose = true) (hD : X.Distinct) {C : Container K}
    (hC : generalSketch env X (some l) r .streaming = .ok C) :
    (∀ mu < X.shape.length, ∀ a < (1 :: l.rank).getD mu 0, ∀ j < X.shape.getD mu 0,
      ∀ b < (r.rank.reverse ++ [1]).getD mu 0, (C.psi.getD mu (ND.zeros [])).get [a, j, b]
        = sumIdx (X.shape.take mu) fun p => l.leftMats env mu p a * X.rightCols env r (mu + 1) (p ++ [j]) b) ∧
    ∀ mu < X.shape.length - 1, ∀ a < l.rank.getD mu 0, ∀ b < r.rank.reverse.getD mu 0,
      (C.omega.getD mu (ND.zeros [])).get [a, b]
        = colsOmega X.shape (l.leftMats env) (X.rightCols env r) (mu + 1) a b := by
  have hd : 2 ≤ X.shape.length := by rw [hl.shape]; exact hl.wf.two
  obtain ⟨C', c, h1, h2, h3, h4, h5⟩ := Props.C35_sum env X l r hl hr hlt hrt
  rw [hC] at h1
  injection h1 with h1
  subst h1
  have e : X.summands.map c = X.summands.map (Leaf.sketchOf env l r l.rank r.rank.reverse) := by
    refine List.map_congr_left fun t ht => ?_
    have e1 := h2 t ht
    rw [Props.generalSketch_any (hl.each t ht) (hr.each t ht) hlt hrt (Tensor.distinct_mem hD t ht)] at e1
    injection e1 with e1
    rw [← e1]
  rw [e] at h5
  have hsh : ∀ t ∈ X.summands, t.shape = X.shape := fun t ht => by rw [(hl.each t ht).shape, ← hl.shape]
  refine ⟨fun mu hmu a ha j hj b hb => ?_, fun mu hmu a ha b hb => ?_⟩
  · rw [h5.1 mu (by rw [h3.psiLen]; exact hmu), List.map_map]
    have key : ∀ t ∈ X.summands, ((fun c : Container K => (c.psi.getD mu (ND.zeros [])).get [a, j, b]) ∘
        Leaf.sketchOf env l r l.rank r.rank.reverse) t
        = sumIdx (X.shape.take mu) fun p => l.leftMats env mu p a * t.rightCols env r (mu + 1) (p ++ [j]) b := by
      intro t ht
      rw [← hsh t ht]
      exact leaf_psi_cols env l r t (by rw [hsh t ht]; exact hmu) ha (by rw [hsh t ht]; exact hj) hb
    rw [List.map_congr_left key]
    unfold Tensor.rightCols
    rw [← sumIdx_list_sum (X.shape.take mu) X.summands fun p t =>
      l.leftMats env mu p a * t.rightCols env r (mu + 1) (p ++ [j]) b]
    exact sumIdx_congr fun p _ => List.sum_map_mul_left ..
  · rw [h5.2 mu (by rw [h3.omegaLen]; exact hmu), List.map_map]
    have key : ∀ t ∈ X.summands, ((fun c : Container K => (c.omega.getD mu (ND.zeros [])).get [a, b]) ∘
        Leaf.sketchOf env l r l.rank r.rank.reverse) t
        = sumIdx (X.shape.take (mu + 1)) fun p => l.leftMats env (mu + 1) p a * t.rightCols env r (mu + 1) p b := by
      intro t ht
      rw [← hsh t ht]
      exact leaf_omega_cols env l r t (by rw [hsh t ht]; exact hmu) ha hb
    rw [List.map_congr_left key]
    unfold colsOmega Tensor.rightCols
    rw [← sumIdx_list_sum (X.shape.take (mu + 1)) X.summands fun p t =>
      l.leftMats env (mu + 1) p a * t.rightCols env r (mu + 1) p b]
    exact sumIdx_congr fun p _ => List.sum_map_mul_left ..

end TTS
