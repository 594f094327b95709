import Verif.Proofs.FloatOrth
import Verif.Props.ApproxOrth
import Verif.Props.FloatLin

/-!
# C104: orthogonalisation and norm in floating point arithmetic

The QR routine is backward stable with relative error `ε`; every other operation is rounded with relative error `u`.
-/

namespace TTS.Props

open Finset TTS.Spec

theorem fl_orth_approx {u ε ρ : ℝ} {r : ℕ} (hu : 0 ≤ u) (hε : 0 ≤ ε) {la : LinAlg} (hq : la.QRApprox ε) {X : TT ℝ} (hX : X.Valid)
    (hp : X.Pos) (hr : ∀ k ∈ X.rank, k ≤ r) (hρ : ε + (1 + ε) * flErr u r ≤ ρ) {res : Except PyErr (TT ℝ)}
    (hres : X.FlOrthogonalize u la res) :
    ∃ (O P : TT ℝ) (L : ND ℝ), res = .ok O ∧ O.Valid ∧ P.Valid ∧ O.shape = X.shape ∧ P.shape = X.shape ∧
      O.cores = O.cores.dropLast ++ [L] ∧ P.cores = P.cores.dropLast ++ [L] ∧
      List.Forall₂ (Partner ε) O.cores.dropLast P.cores.dropLast ∧
      (∀ k < X.rank.length, O.rank.getD k 0 = min ((1 :: O.rank).getD k 0 * X.shape.getD k 0) (X.rank.getD k 0)) ∧
      frobN L ≤ (1 + ρ) ^ (X.shape.length - 1) * X.coreNorms ∧
      frobD X.toNumpy P.toNumpy ≤ (X.shape.length - 1 : ℕ) * ρ * (1 + ρ) ^ (X.shape.length - 1) * X.coreNorms ∧
      frobD X.toNumpy O.toNumpy ≤ 2 * (X.shape.length - 1 : ℕ) * ρ * (1 + ρ) ^ (2 * (X.shape.length - 1)) * X.coreNorms := by
  obtain ⟨cores⟩ := X
  obtain ⟨hne, hch⟩ := hX
  match cores, hne, hch with
  | C :: Cs, _, ⟨n, t, hC, hCs⟩ =>
  obtain ⟨p1, p2⟩ := hp
  have hn : 0 < n := p1 n (by simp [TT.shape, (dim_of_shape3 hC).2.1])
  have hη0 : 0 ≤ flErr u r := sub_nonneg.2 (one_le_pow_u hu _)
  have h1ε : 0 < 1 + ε := by linarith
  obtain ⟨η, hη'⟩ : ∃ η, η = (ρ - ε) / (1 + ε) := ⟨_, rfl⟩
  have hle : flErr u r ≤ η := by rw [hη', le_div_iff₀ h1ε]; linarith
  have hη : 0 ≤ η := hη0.trans hle
  have hρ' : ρ = ε + (1 + ε) * η := by rw [hη', mul_div_cancel₀ _ h1ε.ne']; ring
  obtain ⟨Qs, hQs, rfl⟩ := hres
  obtain ⟨Os, Ps, L, o1, o2, o3, o4, o5, o6, o7, o8, o9, o10, o11, o12⟩ := flOrthLoop_approx hu hε hη hρ' hq Cs C 1 n t hC hCs
    one_pos hn
    (fun D hD => ⟨p2 _ (List.mem_map.2 ⟨D, hD, rfl⟩), p1 _ (List.mem_map.2 ⟨D, List.mem_cons_of_mem _ hD, rfl⟩)⟩)
    (fun D hD => (sub_le_sub_right (pow_le_pow_right₀ (by linarith) (hr _ (List.mem_map.2 ⟨D, hD, rfl⟩))) 1 :
      flErr u (D.dim 0) ≤ flErr u r).trans hle) _ hQs
  subst o1
  have hOv : (TT.mk (Os ++ [L])).Valid := ⟨by simp, o2⟩
  have hPv : (TT.mk (Ps ++ [L])).Valid := ⟨by simp, o3⟩
  have hXv : (TT.mk (C :: Cs)).Valid := ⟨by simp, n, t, hC, hCs⟩
  have hN : (TT.mk (C :: Cs)).shape.length - 1 = Cs.length := by simp [TT.shape]
  rw [hN]
  have rk : ∀ (l : List (ND ℝ)) (k : ℕ), k + 1 < l.length → (TT.mk l).rank.getD k 0 = bondOf l (k + 1) := by
    intro l k hk
    unfold TT.rank bondOf
    rw [getD_map_lt _ _ k (by simp; omega) (ND.zeros []), List.getD_eq_getElem?_getD, List.getElem?_tail,
      ← List.getD_eq_getElem?_getD]
  have b0 : bondOf (Os ++ [L]) 0 = 1 := by
    match Os, o2 with
    | [], ⟨_, _, hO, _⟩ => exact (dim_of_shape3 hO).1
    | O :: Os, ⟨_, _, hO, _⟩ => exact (dim_of_shape3 hO).1
  have hol : (Os ++ [L]).length = Cs.length + 1 := by simp [o7]
  refine ⟨⟨Os ++ [L]⟩, ⟨Ps ++ [L]⟩, L, rfl, hOv, hPv, o4, o5, ?_, ?_, ?_, ?_, o9, ?_, ?_⟩
  · simp
  · simp
  · simpa using o6
  · intro k hk
    have hk : k < Cs.length := by simpa [TT.rank] using hk
    rw [rk _ _ (by omega), rk _ _ (by simpa using hk), o8 k hk]
    have : (1 :: (TT.mk (Os ++ [L])).rank).getD k 0 = bondOf (Os ++ [L]) k := by
      cases k with
      | zero => rw [b0]; rfl
      | succ k => rw [List.getD_cons_succ, rk _ _ (by omega)]
    rw [this]; rfl
  · rw [← dL_tt hXv hPv]; exact o10
  · rw [← dL_tt hXv hOv]; exact o12

/-- **C104.** Let the QR routine be backward stable with relative error `ε`, and let every contraction be rounded with relative
error `u` per operation.  Then every run of `orthogonalize` on a tensor train with `d` positive sizes and positive ranks, none
above `r`, returns a tensor train of the same shape and of the ranks it has in exact arithmetic, whose cores but the last are
left-orthogonal up to `2ε + ε²`, and whose distance from the argument is at most `2 (d-1) ρ (1+ρ)^(2(d-1))` times the product of the
norms of the argument's cores, where `ρ = ε + (1+ε) ((1+u)^r - 1)`. -/
theorem C104 {u ε ρ : ℝ} {r : ℕ} (hu : 0 ≤ u) (hε : 0 ≤ ε) {la : LinAlg} (hq : la.QRApprox ε) {X : TT ℝ} (hX : X.Valid)
    (hp : X.Pos) (hr : ∀ k ∈ X.rank, k ≤ r) (hρ : ρ = ε + (1 + ε) * flErr u r) {res : Except PyErr (TT ℝ)}
    (hres : X.FlOrthogonalize u la res) :
    ∃ O, res = .ok O ∧ O.Valid ∧ O.shape = X.shape ∧
      (∀ k < X.rank.length, O.rank.getD k 0 = min ((1 :: O.rank).getD k 0 * X.shape.getD k 0) (X.rank.getD k 0)) ∧
      (∀ C ∈ O.cores.dropLast, C.NearLeftOrthogonal (2 * ε + ε ^ 2)) ∧
      frobD X.toNumpy O.toNumpy
        ≤ 2 * (X.shape.length - 1 : ℕ) * ρ * (1 + ρ) ^ (2 * (X.shape.length - 1)) * X.coreNorms := by
  obtain ⟨O, P, L, o1, o2, -, o3, -, -, -, o4, o5, -, -, o6⟩ := fl_orth_approx hu hε hq hX hp hr hρ.ge hres
  refine ⟨O, o1, o2, o3, o5, fun C hC => ?_, o6⟩
  have hdim : ∀ {Cs : List (ND ℝ)} {r s : ℕ}, TTChain r Cs s → ∀ C ∈ Cs, ∃ a n k, C.shape = [a, n, k] := by
    intro Cs
    induction Cs with
    | nil => intro r s _ C hC; cases hC
    | cons D Ds ih =>
      intro r s h C hC
      obtain ⟨n, t, hD, hDs⟩ := h
      rcases List.mem_cons.1 hC with rfl | hC
      · exact ⟨_, _, _, hD⟩
      · exact ih hDs C hC
  obtain ⟨a, n, k, hs⟩ := hdim o2.2 C (List.dropLast_subset _ hC)
  obtain ⟨P', hP'⟩ := partner_exists o4 C hC
  exact partner_near hε hs hP'

/-! ### Norms -/

theorem near_sqrt {q w S : ℝ} (hq : 1 ≤ q) (hS : 0 ≤ S) (h : Near q w S S) : Near q (√w) (√S) (√S) := by
  refine ⟨?_, le_of_eq (abs_of_nonneg (Real.sqrt_nonneg _))⟩
  have h1 := abs_le.1 h.1
  have hs := Real.sqrt_nonneg S
  have hup : √w ≤ q * √S := by
    have e : q * √S = √(q ^ 2 * S) := by rw [Real.sqrt_mul (sq_nonneg _), Real.sqrt_sq (by linarith)]
    rw [e]
    exact Real.sqrt_le_sqrt (by nlinarith [mul_nonneg (mul_nonneg (sub_nonneg.2 hq) (by linarith : (0 : ℝ) ≤ q)) hS])
  have hlo : (2 - q) * √S ≤ √w := by
    by_cases h2 : 2 - q ≤ 0
    · exact (mul_nonpos_of_nonpos_of_nonneg h2 hs).trans (Real.sqrt_nonneg _)
    · have e : (2 - q) * √S = √((2 - q) ^ 2 * S) := by rw [Real.sqrt_mul (sq_nonneg _), Real.sqrt_sq (by linarith)]
      rw [e]
      exact Real.sqrt_le_sqrt (by nlinarith [mul_nonneg (mul_nonneg (by linarith : (0 : ℝ) ≤ 2 - q) (sub_nonneg.2 hq)) hS])
  exact abs_le.2 ⟨by linarith, by linarith⟩

theorem flNorm2_near {u : ℝ} (hu : 0 ≤ u) {A : ND ℝ} {v : ℝ} (h : FlNorm2 u A v) :
    Near ((1 + u) ^ (A.size + 1)) v (frobN A) (frobN A) := by
  obtain ⟨w, δ, h1, h2, rfl⟩ := h
  have k := FlVal.near_le hu h1
  have ea : ((List.range A.size).map fun n => (A.reshape [A.size]).get [n]).map (|·|)
      = (List.range A.size).map fun n => ((A.reshape [A.size]).abs).get [n] := by
    rw [List.map_map]
    exact List.map_congr_left fun n _ => (ND.abs_get _ _).symm
  have es : ∑ n ∈ range A.size, (A.reshape [A.size]).get [n] * (A.reshape [A.size]).get [n] = normSq A := by
    unfold normSq
    show ∑ n ∈ range A.shape.prod, _ = _
    rw [← sum_ravel A.shape]
    · refine sumIdx_congr fun i hi => ?_
      have := ND.reshape_flat (A := A) hi
      rw [show (A.reshape [A.size]).get [ravel A.shape i] = A.get i from this]; ring
  rw [ea, vdot_denseDot, vdot_denseDot, List.length_map, List.length_range, es] at k
  have es' : ∑ n ∈ range A.size, (A.reshape [A.size]).abs.get [n] * (A.reshape [A.size]).abs.get [n] = normSq A := by
    rw [← es]
    exact sum_congr rfl fun n _ => by rw [ND.abs_get, abs_mul_abs_self]
  rw [es'] at k
  have hn : 0 ≤ normSq A := by
    unfold normSq
    rw [sumIdx_eq_sum]
    exact sum_nonneg fun _ _ => sq_nonneg _
  have := (near_sqrt (one_le_pow_u hu _) hn k).round (one_le_pow_u hu _) h2
  rwa [← pow_succ'] at this

/-- The number of entries of the last core. -/
theorem last_size {X O : TT ℝ} {L : ND ℝ} (hX : X.Valid) (hO : O.Valid) (hs : O.shape = X.shape) (hL : O.cores = O.cores.dropLast ++ [L])
    (hr : ∀ k < X.rank.length, O.rank.getD k 0 = min ((1 :: O.rank).getD k 0 * X.shape.getD k 0) (X.rank.getD k 0)) :
    L.size ≤ X.rank.getLastD 1 * X.shape.getLastD 0 := by
  obtain ⟨X⟩ := X
  obtain ⟨O⟩ := O
  obtain ⟨hO1, hO2⟩ := hO
  obtain ⟨D, hD⟩ : ∃ D, D = O.dropLast := ⟨_, rfl⟩
  replace hL : O = D ++ [L] := by rw [hD]; exact hL
  subst hL
  clear hD
  have hlen : X.length = D.length + 1 := by
    have := congrArg List.length hs
    simpa [TT.shape] using this.symm
  obtain ⟨a, h1, n, t, h2, h3⟩ := hO2.split
  cases h3
  obtain ⟨d0, d1, d2⟩ := dim_of_shape3 h2
  have hn : (TT.mk X).shape.getLastD 0 = n := by
    rw [← hs]
    show ((D ++ [L]).map _).getLastD 0 = n
    rw [List.map_append, List.map_singleton, List.getLastD_concat, d1]
  have ha : a ≤ (TT.mk X).rank.getLastD 1 := by
    have hrl : (TT.mk X).rank.length = D.length := by simp [TT.rank, hlen]
    match D, h1, hrl, hr with
    | [], h1, hrl, _ =>
      cases h1
      rw [List.length_eq_zero_iff.1 hrl]
      exact le_rfl
    | E :: D, _, hrl, hr =>
      have hr := hr D.length (by rw [hrl]; simp)
      have e1 : (TT.mk (E :: D ++ [L])).rank.getD D.length 0 = a := by
        show ((D ++ [L]).map _).getD D.length 0 = a
        rw [List.map_append, List.map_singleton, List.getD_append_right _ _ _ _ (by simp)]
        simpa using d0
      have e2 : (TT.mk X).rank.getLastD 1 = (TT.mk X).rank.getD D.length 0 := by
        have hne : (TT.mk X).rank ≠ [] := fun h => by rw [h] at hrl; cases hrl
        rw [List.getLastD_eq_getLast?, List.getLast?_eq_getElem?, List.getD_eq_getElem?_getD, hrl]
        have hk : D.length < (TT.mk X).rank.length := by rw [hrl]; simp
        simp [hk]
      rw [e2, ← e1, hr]
      exact min_le_right _ _
  have : L.size = a * n := by simp [ND.size, h2]
  rw [this, hn]
  exact Nat.mul_le_mul_right _ ha

/-- **C104, norms.** Every run of `X.norm()` returns the Frobenius norm of `X.to_numpy()` up to `(1+u)^(n+1) - 1` times that norm,
`n` being the number of entries of the last core, and `(1+u)^(n+1) (d-1) ρ (1+ρ)^(d-1)` times the product of the norms of the
cores. -/
theorem C104_norm {u ε ρ : ℝ} {r : ℕ} (hu : 0 ≤ u) (hε : 0 ≤ ε) {la : LinAlg} (hq : la.QRApprox ε) {X : TT ℝ} (hX : X.Valid)
    (hp : X.Pos) (hr : ∀ k ∈ X.rank, k ≤ r) (hρ : ρ = ε + (1 + ε) * flErr u r) {res : Except PyErr ℝ}
    (hres : X.FlNorm u la res) :
    ∃ v, res = .ok v ∧ |v - frobN X.toNumpy| ≤ flErr u (X.rank.getLastD 1 * X.shape.getLastD 0 + 1) * frobN X.toNumpy
      + (1 + u) ^ (X.rank.getLastD 1 * X.shape.getLastD 0 + 1)
        * ((X.shape.length - 1 : ℕ) * ρ * (1 + ρ) ^ (X.shape.length - 1) * X.coreNorms) := by
  obtain ⟨O', hO', h⟩ := hres
  obtain ⟨O, P, L, rfl, o2, o3, o4, o5, o6, o7, o8, ho, -, o9, -⟩ := fl_orth_approx hu hε hq hX hp hr hρ.ge hO'
  obtain ⟨v, hv, rfl⟩ := h
  refine ⟨v, rfl, ?_⟩
  have hL : O.cores.getLastD (ND.zeros []) = L := by rw [o6, List.getLastD_concat]
  rw [hL] at hv
  have k := (flNorm2_near hu hv).mono (pow_le_pow_right₀ (by linarith) (Nat.succ_le_succ (last_size hX o2 o4 o6 ho)))
  have e : frobN L = frobN P.toNumpy := by
    have := orth_norm o3 (partner_orth o8)
    rw [o7, List.getLastD_concat] at this
    unfold frobN; rw [this]
  have hn : |frobN L - frobN X.toNumpy| ≤ (X.shape.length - 1 : ℕ) * ρ * (1 + ρ) ^ (X.shape.length - 1) * X.coreNorms := by
    rw [e]
    exact (frobN_sub (by rw [TT.toNumpy_shape o3, TT.toNumpy_shape hX, o5])).trans o9
  generalize (X.shape.length - 1 : ℕ) * ρ * (1 + ρ) ^ (X.shape.length - 1) * X.coreNorms = E at hn ⊢
  generalize hN : X.rank.getLastD 1 * X.shape.getLastD 0 + 1 = N at k ⊢
  have hN' : (X.rank.getLastD 1 * X.shape.getLastD 0).succ = N := hN
  rw [hN'] at k
  have k1 := k.1
  have h1 := one_le_pow_u hu N
  have t := abs_add_le (v - frobN L) (frobN L - frobN X.toNumpy)
  rw [sub_add_sub_cancel] at t
  have hle : frobN L ≤ frobN X.toNumpy + E := by have := (abs_le.1 hn).2; linarith
  have := mul_le_mul_of_nonneg_left hle (sub_nonneg.2 h1)
  unfold flErr
  nlinarith

/-! ### Norms of computed tensor trains -/

/-- Frobenius norm of the tensor an expression denotes. -/
noncomputable def _root_.TTS.TTExpr.frob (e : TTExpr) : ℝ := √ (sumIdx e.shape fun i => e.entry i ^ 2)

theorem frob_expr_sub {e : TTExpr} {A : ND ℝ} {η : ℝ} (hη : 0 ≤ η) (hs : A.shape = e.shape) (hs' : e.abs.shape = e.shape)
    (h : ∀ i, |A.get i - e.entry i| ≤ η * e.abs.entry i) : |frobN A - e.frob| ≤ η * e.abs.frob := by
  have c1 : e.frob = frobN (ND.ofFn e.shape e.entry) := by
    unfold TTExpr.frob frobN normSq
    congr 1
    exact sumIdx_congr fun i hi => by rw [ND.ofFn_get hi]
  have c2 : e.abs.frob = frobN (ND.ofFn e.shape e.abs.entry) := by
    unfold TTExpr.frob frobN normSq
    rw [hs']
    congr 1
    exact sumIdx_congr fun i hi => by rw [ND.ofFn_get hi]
  rw [c1, c2, abs_sub_comm]
  refine (frobN_sub (A := A) (B := ND.ofFn e.shape e.entry) hs.symm).trans ?_
  unfold frobD frobN
  rw [← Real.sqrt_sq hη, ← Real.sqrt_mul (sq_nonneg η)]
  refine Real.sqrt_le_sqrt ?_
  unfold distSq normSq
  show sumIdx A.shape _ ≤ η ^ 2 * sumIdx e.shape _
  rw [hs, sumIdx_eq_sum, sumIdx_eq_sum, mul_sum]
  refine sum_le_sum fun i hi => ?_
  have hi := mem_idxSet.1 hi
  rw [ND.ofFn_get hi, ND.ofFn_get hi, ← mul_pow, ← sq_abs]
  exact pow_le_pow_left₀ (abs_nonneg _) (h i) 2

theorem near_coreNorms {u : ℝ} (hu : 0 ≤ u) : ∀ {ns : List ℕ} {Cs As Ms : List (ND ℝ)}, CN u ns Cs As Ms →
    (Cs.map frobN).prod ≤ (1 + u) ^ ns.sum * (Ms.map frobN).prod
  | [], [], [], [], _ => by simp
  | n :: ns, C :: Cs, A :: As, M :: Ms, ⟨h, hs⟩ => by
    have ih := near_coreNorms hu hs
    have hc : frobN C ≤ (1 + u) ^ n * frobN M := by
      have hq : 0 ≤ (1 + u) ^ n := by positivity
      unfold frobN
      rw [← Real.sqrt_sq hq, ← Real.sqrt_mul (sq_nonneg _)]
      refine Real.sqrt_le_sqrt ?_
      unfold normSq
      rw [h.1, h.2.1, sumIdx_eq_sum, sumIdx_eq_sum, mul_sum]
      refine sum_le_sum fun i _ => ?_
      rw [← mul_pow, ← sq_abs]
      exact pow_le_pow_left₀ (abs_nonneg _) (h.2.2 i).abs_le 2
    rw [List.map_cons, List.prod_cons, List.map_cons, List.prod_cons, List.sum_cons, pow_add]
    have h0 : 0 ≤ (Cs.map frobN).prod := List.prod_nonneg fun x hx => by
      obtain ⟨c, -, rfl⟩ := List.mem_map.1 hx
      exact frobN_nonneg c
    calc _ ≤ ((1 + u) ^ n * frobN M) * ((1 + u) ^ ns.sum * (Ms.map frobN).prod) :=
          mul_le_mul hc ih h0 (mul_nonneg (by positivity) (frobN_nonneg _))
      _ = _ := by ring

/-- **C104, programs.** The norm of the result of a program of tensor-train operations (C103) run in floating point arithmetic, in
terms of the program alone: to the error of C104_norm comes the error of the program, which is relative to the norm of the tensor
computed with the absolute values of all numbers (`e.abs`). -/
theorem C104_program {u ε ρ : ℝ} {r : ℕ} (hu : 0 ≤ u) (hε : 0 ≤ ε) {la : LinAlg} (hq : la.QRApprox ε) {e : TTExpr} (he : e.Valid)
    (hp : e.eval.Pos) (hr : ∀ k ∈ e.eval.rank, k ≤ r) (hρ : ρ = ε + (1 + ε) * flErr u r) {Y : TT ℝ} (hY : e.FlEval u Y)
    {res : Except PyErr ℝ} (hres : Y.FlNorm u la res) :
    ∃ v, res = .ok v ∧ |v - e.frob| ≤ flErr u (e.eval.rank.getLastD 1 * e.shape.getLastD 0 + 1) * e.frob
      + (1 + u) ^ (e.eval.rank.getLastD 1 * e.shape.getLastD 0 + 1)
        * (flErr u e.rounds * e.abs.frob
          + (e.shape.length - 1 : ℕ) * ρ * (1 + ρ) ^ (e.shape.length - 1) * ((1 + u) ^ e.rounds * e.abs.eval.coreNorms)) := by
  obtain ⟨vY, sY, rY, h⟩ := ttExpr_result hu he hY
  have hp' : Y.Pos := by
    unfold TT.Pos
    rw [sY, rY, ← (ttExpr_eval he).2.1]
    exact hp
  obtain ⟨v, hv, k⟩ := C104_norm hu hε hq vY hp' (by rw [rY]; exact hr) hρ hres
  refine ⟨v, hv, ?_⟩
  have d := frob_expr_sub (sub_nonneg.2 (one_le_pow_u hu e.rounds)) ((TT.toNumpy_shape vY).trans sY) (ttExpr_abs he).2
    fun i => (h i).1.1
  have hη : 0 ≤ flErr u r := sub_nonneg.2 (one_le_pow_u hu _)
  have hρ0 : 0 ≤ ρ := by rw [hρ]; positivity
  have hc : (e.shape.length - 1 : ℕ) * ρ * (1 + ρ) ^ (e.shape.length - 1) * Y.coreNorms
      ≤ (e.shape.length - 1 : ℕ) * ρ * (1 + ρ) ^ (e.shape.length - 1) * ((1 + u) ^ e.rounds * e.abs.eval.coreNorms) :=
    mul_le_mul_of_nonneg_left (near_coreNorms hu (ttExpr_near hu he hY)) (by positivity)
  rw [sY, rY] at k
  rw [show (1 + u) ^ e.rounds - 1 = flErr u e.rounds from rfl] at d
  generalize (e.shape.length - 1 : ℕ) * ρ * (1 + ρ) ^ (e.shape.length - 1) * Y.coreNorms = E' at k hc
  generalize (e.shape.length - 1 : ℕ) * ρ * (1 + ρ) ^ (e.shape.length - 1) * ((1 + u) ^ e.rounds * e.abs.eval.coreNorms) = E at hc ⊢
  generalize flErr u e.rounds * e.abs.frob = F at d ⊢
  generalize e.eval.rank.getLastD 1 * e.shape.getLastD 0 + 1 = N at k ⊢
  have h1 := one_le_pow_u hu N
  have t := abs_add_le (v - frobN Y.toNumpy) (frobN Y.toNumpy - e.frob)
  rw [sub_add_sub_cancel] at t
  have hle : frobN Y.toNumpy ≤ e.frob + F := by have := (abs_le.1 d).2; linarith
  have := mul_le_mul_of_nonneg_left hle (sub_nonneg.2 h1)
  have := mul_le_mul_of_nonneg_left hc (by linarith : (0 : ℝ) ≤ (1 + u) ^ N)
  unfold flErr at k ⊢
  nlinarith

theorem zip_last : ∀ l l' : List ℕ, l.length = l'.length → l ≠ [] →
    (List.zipWith (· + ·) l l').getLastD 1 = l.getLastD 1 + l'.getLastD 1
  | [a], [b], _, _ => rfl
  | a :: b :: l, a' :: b' :: l', h, _ => by
    have := zip_last (b :: l) (b' :: l') (by simpa using h) (by simp)
    simpa [List.getLastD_cons] using this

theorem max_last : ∀ n : ℕ, (List.zipWith max (List.replicate (n + 1) 0) (List.replicate n 0 ++ [1])).sum = 1
  | 0 => rfl
  | n + 1 => by
    have := max_last n
    rw [List.replicate_succ (n := n), List.replicate_succ (n := n + 1), List.cons_append, List.zipWith_cons_cons, List.sum_cons,
      this]
    simp

/-- **C104, errors.** Every run of `X.error(Y)` for two tensor trains of the same shape (at least two modes, positive ranks) returns
the Frobenius distance `D` of `X.to_numpy()` and `Y.to_numpy()` up to
`((1+u)^(n+1) - 1) D + (1+u)^(n+1) (u A + (d-1) ρ (1+ρ)^(d-1) (1+u) c)`, where `A` is the norm of `|X| + |Y|` (all cores replaced by
their absolute values), `c` the product of the norms of the cores of `X - Y`, and `n` the number of entries of its last core. -/
theorem C104_error {u ε ρ : ℝ} {r : ℕ} (hu : 0 ≤ u) (hε : 0 ≤ ε) {la : LinAlg} (hq : la.QRApprox ε) {X Y : TT ℝ} (hX : X.Valid)
    (hY : Y.Valid) (hs : X.shape = Y.shape) (h2 : 2 ≤ X.shape.length) (hp : X.Pos)
    (hr : ∀ k ∈ List.zipWith (· + ·) X.rank Y.rank, k ≤ r) (hρ : ρ = ε + (1 + ε) * flErr u r)
    {res : Except PyErr ℝ} (hres : X.FlError u la Y res) :
    ∃ v, res = .ok v ∧
      |v - frobD X.toNumpy Y.toNumpy| ≤
        flErr u ((X.rank.getLastD 1 + Y.rank.getLastD 1) * X.shape.getLastD 0 + 1) * frobD X.toNumpy Y.toNumpy
        + (1 + u) ^ ((X.rank.getLastD 1 + Y.rank.getLastD 1) * X.shape.getLastD 0 + 1)
          * (u * √ (sumIdx X.shape fun i => (ttEntry X.abs i + ttEntry Y.abs i) ^ 2)
            + (X.shape.length - 1 : ℕ) * ρ * (1 + ρ) ^ (X.shape.length - 1)
              * ((1 + u) * (X.abs.add (Y.abs.mul 1)).coreNorms)) := by
  obtain ⟨Z, hZ, hN⟩ := hres
  have he : TTExpr.Valid (.add (.tt X) (.mul (.tt Y) (-1))) := ⟨hX, hY, hs, h2⟩
  have hlX : X.rank.length + 1 = X.shape.length := by
    have := hX.1
    have : X.cores.length ≠ 0 := fun h => this (List.length_eq_zero_iff.1 h)
    simp [TT.rank, TT.shape]; omega
  have hlY : Y.rank.length + 1 = X.shape.length := by
    have := hY.1
    have : Y.cores.length ≠ 0 := fun h => this (List.length_eq_zero_iff.1 h)
    rw [hs]; simp [TT.rank, TT.shape]; omega
  have hev := ttExpr_eval he
  have hrk : (TTExpr.eval (.add (.tt X) (.mul (.tt Y) (-1)))).rank = List.zipWith (· + ·) X.rank Y.rank := by
    obtain ⟨m1, m2, -⟩ := ttExpr_eval (e := .mul (.tt Y) (-1)) hY
    have := (TT.add_spec hX m1 (hs.trans m2.symm) h2).2.2.1
    refine this.trans ?_
    congr 1
    show (Y.mul (-1)).rank = _
    unfold TT.rank
    rw [List.map_tail, List.map_tail, TT.mul_cores hY.1]
    congr 1
    conv_rhs => rw [← List.dropLast_append_getLast hY.1]
    rw [List.map_append, List.map_append]
    rfl
  have hpos : (TTExpr.eval (.add (.tt X) (.mul (.tt Y) (-1)))).Pos := by
    refine ⟨fun n hn => hp.1 n (by rw [hev.2.1] at hn; exact hn), fun k hk => ?_⟩
    rw [hrk] at hk
    obtain ⟨j, hj, rfl⟩ := List.mem_iff_getElem.1 hk
    rw [List.getElem_zipWith]
    exact Nat.add_pos_left (hp.2 _ (List.getElem_mem _)) _
  obtain ⟨v, hv, k⟩ := C104_program hu hε hq he hpos (by rw [hrk]; exact hr) hρ ⟨X, Z, rfl, ⟨Y, rfl, hZ⟩, rfl⟩ hN
  refine ⟨v, hv, ?_⟩
  have e1 : TTExpr.frob (.add (.tt X) (.mul (.tt Y) (-1))) = frobD X.toNumpy Y.toNumpy := by
    unfold TTExpr.frob frobD distSq
    rw [TT.toNumpy_shape hX]
    congr 1
    refine sumIdx_congr fun i _ => ?_
    rw [TT.toNumpy_get hX, TT.toNumpy_get hY]
    show (ttEntry X i + ttEntry Y i * (-1)) ^ 2 = _
    ring
  have e2 : TTExpr.frob (TTExpr.abs (.add (.tt X) (.mul (.tt Y) (-1)))) = √ (sumIdx X.shape fun i => (ttEntry X.abs i + ttEntry Y.abs i) ^ 2) := by
    unfold TTExpr.frob
    rw [show (TTExpr.abs (.add (.tt X) (.mul (.tt Y) (-1)))).shape = X.shape from TT.abs_shape X]
    congr 1
    refine sumIdx_congr fun i _ => ?_
    show (ttEntry X.abs i + ttEntry Y.abs i * |(-1 : ℝ)|) ^ 2 = _
    rw [abs_neg, abs_one, mul_one]
  have e3 : TTExpr.rounds (.add (.tt X) (.mul (.tt Y) (-1))) = 1 := by
    obtain ⟨m, hm⟩ : ∃ m, X.shape.length = m + 1 := ⟨X.rank.length, hlX.symm⟩
    have hX' : X.cores.length = m + 1 := by simpa [TT.shape] using hm
    have hY' : Y.cores.length = m + 1 := by rw [hs] at hm; simpa [TT.shape] using hm
    show (List.zipWith max (X.cores.map fun _ => 0) ((Y.cores.map fun _ => 0).dropLast ++ [(Y.cores.map fun _ => 0).getLastD 0 + 1])).sum = 1
    rw [List.map_const', List.map_const', hX', hY', List.dropLast_replicate,
      List.replicate_succ' (n := m), List.getLastD_concat, ← List.replicate_succ']
    exact max_last m
  have e4 : TTExpr.eval (TTExpr.abs (.add (.tt X) (.mul (.tt Y) (-1)))) = X.abs.add (Y.abs.mul 1) := by
    show X.abs.add (Y.abs.mul |(-1 : ℝ)|) = _
    rw [abs_neg, abs_one]
  have e5 := zip_last X.rank Y.rank (by omega) fun h => by rw [h] at hlX; simp at hlX; omega
  have e6 : TTExpr.shape (.add (.tt X) (.mul (.tt Y) (-1))) = X.shape := rfl
  rw [e1, e2, e3, e4, e6, hrk, e5, pow_one] at k
  rwa [show flErr u 1 = u from by unfold flErr; ring] at k

/-! ### Runs -/

theorem flOrthLoop_exact {u : ℝ} (hu : 0 ≤ u) (la : LinAlg) : ∀ (R : Option (ND ℝ)) (Cs : List (ND ℝ)),
    TT.FlOrthLoop u la R Cs (TT.orthLoop la R Cs)
  | _, [] => rfl
  | R, [C] => by
    cases R with
    | none => exact ⟨C, rfl, rfl⟩
    | some R => exact ⟨_, FlEinsum.exact hu _ (by simp) _, rfl⟩
  | R, C :: D :: Ds => by
    have key : ∀ C' : ND ℝ, (match R with
        | none => C' = C
        | some R => FlEinsum u [([.i, .j], R), ([.j, .k, .l], C)] [.i, .k, .l] C') →
        TT.orthLoop la R (C :: D :: Ds) = TT.orthLoop la none (C' :: D :: Ds) →
        TT.FlOrthLoop u la R (C :: D :: Ds) (TT.orthLoop la R (C :: D :: Ds)) := by
      intro C' h e
      refine ⟨C', h, ?_⟩
      rw [e]
      unfold TT.orthLoop
      dsimp only
      cases hQ : ND.reshapeInfer (la.qr (C'.reshape [C'.dim 0 * C'.dim 1, C'.dim 2])).1 (C'.dim 0) (C'.dim 1) with
      | error e => rfl
      | ok Q =>
        refine ⟨_, flOrthLoop_exact hu la (some (la.qr (C'.reshape [C'.dim 0 * C'.dim 1, C'.dim 2])).2) (D :: Ds), ?_⟩
        cases TT.orthLoop la (some (la.qr (C'.reshape [C'.dim 0 * C'.dim 1, C'.dim 2])).2) (D :: Ds) <;> rfl
    cases R with
    | none => exact key C rfl rfl
    | some R => exact key (ND.es_ij_jkl_ikl R C) (FlEinsum.exact hu _ (by simp) _) rfl

theorem flNorm2_exact {u : ℝ} (hu : 0 ≤ u) (A : ND ℝ) : FlNorm2 u A (ND.frob A) := by
  have h := FlVdot.exact hu ((List.range A.size).map fun n => (A.reshape [A.size]).get [n])
    ((List.range A.size).map fun n => (A.reshape [A.size]).get [n]) rfl
  refine ⟨_, 0, h, by simpa using hu, ?_⟩
  have k := flNorm2_near (u := 0) le_rfl (A := A) (v := √ (Leaf.vdot
    ((List.range A.size).map fun n => (A.reshape [A.size]).get [n])
    ((List.range A.size).map fun n => (A.reshape [A.size]).get [n])) * (1 + 0)) ⟨_, 0, FlVdot.exact le_rfl _ _ rfl, by simp, rfl⟩
  have := k.1
  simp only [add_zero, one_pow, sub_self, zero_mul] at this
  have := sub_eq_zero.1 (abs_nonpos_iff.1 this)
  rw [add_zero, this]; rfl

/-- **C104, the routines of the code.** Exact arithmetic is one of the runs, for every unit roundoff; and without rounding errors it
is the only one, whatever the QR routine. -/
theorem C104_runs {u : ℝ} (hu : 0 ≤ u) (la : LinAlg) (X : TT ℝ) :
    X.FlOrthogonalize u la (X.orthogonalize la) ∧ X.FlNorm u la (X.norm la) := by
  have h : X.FlOrthogonalize u la (X.orthogonalize la) := ⟨_, flOrthLoop_exact hu la none X.cores, rfl⟩
  refine ⟨h, _, h, ?_⟩
  unfold TT.norm
  cases X.orthogonalize la with
  | error e => rfl
  | ok O => exact ⟨_, flNorm2_exact hu _, rfl⟩

/-- **C104, no rounding errors.** With exact arithmetic (and an inexact QR routine), C104_norm is the bound of C93_norm; with an
exact routine as well, the norm is that of the tensor. -/
theorem C104_exact {la : LinAlg} (hq : la.QROk) {X : TT ℝ} (hX : X.Valid) (hp : X.Pos) {res : Except PyErr ℝ}
    (hres : X.FlNorm 0 la res) : res = .ok (frobN X.toNumpy) := by
  obtain ⟨v, rfl, h⟩ := C104_norm (u := 0) (ε := 0) (r := X.rank.foldr max 0) le_rfl le_rfl (approxQr_of_exact hq le_rfl) hX hp
    (fun k hk => le_foldr_max hk) rfl hres
  simp only [flErr, add_zero, one_pow, sub_self, mul_zero, zero_mul] at h
  rw [sub_eq_zero.1 (abs_nonpos_iff.1 h)]

/-- the hypotheses, with an inexact routine and the train of C93 -/
example : (badQr (1 / 10 ^ 15)).QRApprox (1 / 10 ^ 15) ∧ x9.Valid ∧ x9.Pos ∧
    x9.FlNorm (1 / 10 ^ 16) (badQr (1 / 10 ^ 15)) (x9.norm (badQr (1 / 10 ^ 15))) :=
  ⟨badQr_approx (by norm_num), x9_valid, x9_pos, (C104_runs (by norm_num) _ _).2⟩

end TTS.Props
