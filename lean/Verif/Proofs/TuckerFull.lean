import Verif.Proofs.TuckerSketch
import Mathlib.LinearAlgebra.Matrix.ToLin
import Mathlib.LinearAlgebra.Matrix.NonsingularInverse
import Mathlib.LinearAlgebra.Matrix.Rank
import Verif.Spec.Contract

/-! Tucker tensors whose factors have full row rank: the right contractions come from matrices on the modes. -/

namespace TTS

open Finset

variable {K : Type*} [Field K]

theorem right_inverse_of_rank {U : ND K} {r n : ℕ} (h : (U.asMatrix r n).rank = r) :
    ∃ V : ND K, ∀ s < r, ∀ t < r, ∑ i ∈ range n, U.get [s, i] * V.get [i, t] = if s = t then 1 else 0 := by
  have hs : Function.Surjective (U.asMatrix r n).mulVec := by
    have : LinearMap.range (U.asMatrix r n).mulVecLin = ⊤ := by
      apply Submodule.eq_top_of_finrank_eq
      rw [← Matrix.rank, h]; simp
    exact LinearMap.range_eq_top.1 this
  obtain ⟨B, hB⟩ := Matrix.mulVec_surjective_iff_exists_right_inverse.1 hs
  refine ⟨ND.ofFn [n, r] fun i => if h : i.getD 0 0 < n ∧ i.getD 1 0 < r then B ⟨_, h.1⟩ ⟨_, h.2⟩ else 0, ?_⟩
  intro s hs t ht
  have := congrFun (congrFun hB ⟨s, hs⟩) ⟨t, ht⟩
  rw [Matrix.mul_apply, Matrix.one_apply] at this
  simp only [Fin.mk.injEq] at this
  rw [← this, ← Fin.sum_univ_eq_sum_range (fun i => U.get [s, i] * _)]
  refine sum_congr rfl fun i _ => ?_
  rw [ND.ofFn_get (show InR [n, r] [(i : ℕ), t] from ⟨i.2, ht, trivial⟩)]
  have h1 : ([(i : ℕ), t].getD 0 0 < n ∧ [(i : ℕ), t].getD 1 0 < r) := ⟨i.2, ht⟩
  rw [dif_pos h1]
  rfl

theorem facProd_inverse : ∀ (Us Vs : List (ND K)) (rk sh : List ℕ), Us.length = rk.length → Us.length = sh.length →
    Us.length = Vs.length →
    (∀ k < Us.length, ∀ s < rk.getD k 0, ∀ t < rk.getD k 0, ∑ i ∈ range (sh.getD k 0),
      (Us.getD k (ND.zeros [])).get [s, i] * (Vs.getD k (ND.zeros [])).get [i, t] = if s = t then 1 else 0) →
    ∀ s t, InR rk s → InR rk t →
      sumIdx sh (fun q => facProd Us s q * facProd Vs q t) = if s = t then 1 else 0
  | [], [], [], [], _, _, _, _, [], [], _, _ => by simp [facProd]
  | U :: Us, V :: Vs, r :: rk, n :: sh, h1, h2, h3, h, x :: s, y :: t, hs, ht => by
    have ih := facProd_inverse Us Vs rk sh (by simpa using h1) (by simpa using h2) (by simpa using h3)
      (fun k hk => by simpa using h (k + 1) (by simpa using hk)) s t hs.2 ht.2
    have h0 := h 0 (by simp) x hs.1 y ht.1
    simp only [List.getD_cons_zero] at h0
    rw [sumIdx_cons]
    have e : ∀ i, (sumIdx sh fun q => facProd (U :: Us) (x :: s) (i :: q) * facProd (V :: Vs) (i :: q) (y :: t))
        = (U.get [x, i] * V.get [i, y]) * if s = t then 1 else 0 := by
      intro i
      rw [← ih, mul_sumIdx]
      refine sumIdx_congr fun q _ => ?_
      simp only [facProd]; ring
    rw [sum_congr rfl fun i _ => e i, ← sum_mul, h0]
    by_cases a : x = y <;> by_cases b : s = t <;> simp [a, b]
  | [], _ :: _, _, _, _, _, h, _, _, _, _, _ => by simp at h
  | [], _, _ :: _, _, h, _, _, _, _, _, _, _ => by simp at h
  | [], _, _, _ :: _, _, h, _, _, _, _, _, _ => by simp at h
  | _ :: _, [], _, _, _, _, h, _, _, _, _, _ => by simp at h
  | _ :: _, _, [], _, h, _, _, _, _, _, _, _ => by simp at h
  | _ :: _, _, _, [], _, h, _, _, _, _, _, _ => by simp at h

/-- The right contraction of a Tucker tensor with factors of full row rank is that of some matrices. -/
theorem right_tucker_full {env : Env K} {r : DRM K} {X : Tucker K} (hr : r.Accepts (.tucker X))
    (hrt : r.transpose = true) (hf : ∀ k < X.factors.length,
      ((X.factors.getD k (ND.zeros [])).asMatrix (X.rank.getD k 0) (X.shape.getD k 0)).rank = X.rank.getD k 0) :
    ∃ R : Mats K, (R X.shape.length = fun _ _ => 1) ∧ ∀ mu < X.shape.length - 1,
      IsContrR (.tucker X) (mu + 1) (r.rank.reverse.getD mu 0) (R (mu + 1))
        ((r.sketchD env (.tucker X)).getD mu (ND.zeros [])) := by
  have hrl : X.rank.length = X.factors.length := by simp [Tucker.rank]
  have hsl : X.shape.length = X.factors.length := by simp [Tucker.shape]
  obtain ⟨-, r2⟩ := right_raw env hr hrt
  haveI : Nonempty (ND K) := ⟨ND.zeros []⟩
  choose! V hV using fun k (hk : k < X.factors.length) => right_inverse_of_rank (hf k hk)
  have key : ∀ mu, ∃ R : List ℕ → ℕ → K, mu < X.shape.length - 1 →
      IsContrR (.tucker X) (mu + 1) (r.rank.reverse.getD mu 0) R
        ((r.sketchD env (.tucker X)).getD mu (ND.zeros [])) := by
    intro mu
    by_cases hmu : mu < X.shape.length - 1
    · obtain ⟨a1, a2⟩ := right_tucker_rows (by omega) (r2 mu hmu)
      refine ⟨fun q b => sumIdx (X.rank.drop (mu + 1)) fun t' =>
          facProd (((List.range X.factors.length).map V).drop (mu + 1)) q t' *
            (sumIdx (X.shape.drop (mu + 1)) fun q' => facProd (X.factors.drop (mu + 1))
              (unravel (X.rank.drop (mu + 1)).reverse (ravel (X.rank.drop (mu + 1)) t')).reverse q' *
                r.entry env (r.shape.length - 1 - (mu + 1)) q'.reverse b),
        fun _ => ⟨a1, fun t b ht hb => (a2 t b ht hb).trans ?_⟩⟩
      · beta_reduce
        generalize hG : (fun t' => sumIdx (X.shape.drop (mu + 1)) fun q' => facProd (X.factors.drop (mu + 1))
              (unravel (X.rank.drop (mu + 1)).reverse (ravel (X.rank.drop (mu + 1)) t')).reverse q' *
                r.entry env (r.shape.length - 1 - (mu + 1)) q'.reverse b) = G
        have hG' : ∀ t', (sumIdx (X.shape.drop (mu + 1)) fun q' => facProd (X.factors.drop (mu + 1))
              (unravel (X.rank.drop (mu + 1)).reverse (ravel (X.rank.drop (mu + 1)) t')).reverse q' *
                r.entry env (r.shape.length - 1 - (mu + 1)) q'.reverse b) = G t' := fun t' => congrFun hG t'
        simp only [hG']
        symm
        calc _ = sumIdx (X.shape.drop (mu + 1)) (fun p => sumIdx (X.rank.drop (mu + 1)) fun t' =>
              facProd (X.factors.drop (mu + 1)) t p *
                facProd (((List.range X.factors.length).map V).drop (mu + 1)) p t' * G t') := by
              refine sumIdx_congr fun p _ => ?_
              rw [mul_sumIdx]
              exact sumIdx_congr fun t' _ => by ring
          _ = sumIdx (X.rank.drop (mu + 1)) (fun t' => if t' = t then G t' else 0) := by
              rw [sumIdx_comm]
              refine sumIdx_congr fun t' ht' => ?_
              rw [← sumIdx_mul, facProd_inverse _ _ (X.rank.drop (mu + 1)) (X.shape.drop (mu + 1)) (by simp; omega)
                (by simp; omega) (by simp) ?_ t t' ht ht']
              · by_cases h : t = t'
                · simp [h]
                · rw [if_neg h, if_neg (Ne.symm h), zero_mul]
              · intro k hk s hs u hu
                have hk' : mu + 1 + k < X.factors.length := by simp at hk; omega
                have := hV (mu + 1 + k) hk' s (by simpa [List.getD_eq_getElem?_getD, List.getElem?_drop] using hs) u
                  (by simpa [List.getD_eq_getElem?_getD, List.getElem?_drop] using hu)
                have e1 : (X.shape.drop (mu + 1)).getD k 0 = X.shape.getD (mu + 1 + k) 0 := by
                  simp [List.getD_eq_getElem?_getD, List.getElem?_drop]
                have e2 : (X.factors.drop (mu + 1)).getD k (ND.zeros []) = X.factors.getD (mu + 1 + k) (ND.zeros []) := by
                  simp [List.getD_eq_getElem?_getD, List.getElem?_drop]
                have e3 : (((List.range X.factors.length).map V).drop (mu + 1)).getD k (ND.zeros []) = V (mu + 1 + k) := by
                  have : (((List.range X.factors.length).map V).drop (mu + 1)).getD k (ND.zeros [])
                      = ((List.range X.factors.length).map V).getD (mu + 1 + k) (ND.zeros []) := by
                    simp only [List.getD_eq_getElem?_getD, List.getElem?_drop]
                  rw [this, getD_map_range _ _ _ _ hk']
                rw [e1, e2, e3]; exact this
          _ = _ := sumIdx_ite_eq ht G
    · exact ⟨fun _ _ => 0, fun h => absurd h hmu⟩
  choose R hR using key
  refine ⟨fun k => if k = X.shape.length then fun _ _ => 1 else R (k - 1), by simp, fun mu hmu => ?_⟩
  simp only [if_neg (show ¬ mu + 1 = X.shape.length by omega), Nat.add_sub_cancel]
  exact hR mu hmu

end TTS
