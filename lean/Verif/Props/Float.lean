import Verif.Proofs.FloatExact
import Verif.Props.Norm
import Mathlib.Algebra.Order.Ring.Pow
import Mathlib.Tactic.FieldSimp
import Mathlib.Tactic.Positivity

/-!
# C85: rounding errors

`Spec/Float.lean` states the arithmetic (the standard model of floating point arithmetic with unit
roundoff `u`), `Model/Float.lean` the programs.  `X.abs` is `X` with all stored numbers replaced by
their absolute values.
-/

namespace TTS.Props

open Finset TTS.Spec

/-- **C85, to_numpy.** Whatever the order of the operations and the individual rounding errors, the
array returned by `to_numpy()` has the shape of the tensor and its entries differ from those of the
exact tensor by at most `((1+u)^n - 1)` times the entries of the tensor with absolute values, where
`n` is the number of roundings. -/
theorem C85_to_numpy {u : ℝ} (hu : 0 ≤ u) {X : Tensor ℝ} (hX : X.Valid) {B : ND ℝ}
    (hB : X.FlToNumpy u B) :
    B.shape = X.shape ∧
      ∀ i, |B.get i - X.toNumpy.get i| ≤ flErr u X.denseRounds * X.abs.toNumpy.get i := by
  have := Tensor.toNumpy_near hu hX hB
  exact ⟨this.1.trans (Tensor.toNumpy_shape hX), fun i => (this.2.2 i).1⟩

/-- **C85, gather.** The same for the entries returned by `gather`. -/
theorem C85_gather {u : ℝ} (hu : 0 ≤ u) {X : Leaf ℝ} (hX : X.Valid)
    {G : List (List ℕ) → List ℝ → Prop} (hG : X.FlGather u = some G) {idxs : List (List ℕ)}
    (hin : ∀ i ∈ idxs, InR X.shape i) {vs : List ℝ} (hv : G idxs vs) :
    vs.length = idxs.length ∧ ∀ n < idxs.length,
      |vs.getD n 0 - X.toNumpy.get (idxs.getD n [])|
        ≤ flErr u X.gatherRounds * X.abs.toNumpy.get (idxs.getD n []) := by
  obtain ⟨g, ga, e1, e2, h⟩ := Leaf.gather_near hu hX hG
  have h := h idxs vs hv
  rw [Leaf.gather_eq hX e1 idxs hin,
    Leaf.gather_eq (Leaf.abs_valid hX) e2 idxs (by rw [Leaf.abs_shape]; exact hin)] at h
  clear hv hin
  induction idxs generalizing vs with
  | nil => cases h; simp
  | cons i idxs ih =>
    simp only [List.map_cons] at h
    cases h with
    | cons h0 h1 =>
      obtain ⟨i1, i2⟩ := ih h1
      refine ⟨by simp [i1], fun n hn => ?_⟩
      cases n with
      | zero => exact h0.1
      | succ n => exact i2 n (by simpa using hn)

/-- **C85, dot.** The number returned by `X.dot(Y)`, for any two tensors of the same shape and any
formats, differs from the inner product of the exact tensors by at most `((1+u)^n - 1)` times the
inner product of the tensors with absolute values. -/
theorem C85_dot {u : ℝ} (hu : 0 ≤ u) {X Y : Tensor ℝ} (hX : X.Valid) (hY : Y.Valid)
    (dX : X.Distinct) (dY : Y.Distinct) (hs : X.shape = Y.shape) {v : ℝ} (hv : X.FlDot u Y v) :
    |v - innerND X.toNumpy Y.toNumpy|
      ≤ flErr u (X.dotRounds Y) * innerND X.abs.toNumpy Y.abs.toNumpy :=
  (Tensor.dot_near hu hX hY dX dY hs hv).1

theorem abs_sqrt_sub_le (a b : ℝ) : |√a - √b| ≤ √|a - b| := by
  apply Real.le_sqrt_of_sq_le
  rw [sq_abs]
  have ha := Real.sqrt_nonneg a
  have hb := Real.sqrt_nonneg b
  have key : ∀ a b : ℝ, b ≤ a → (√a - √b) ^ 2 ≤ |a - b| := by
    intro a b hab
    have ha := Real.sqrt_nonneg a
    have hb := Real.sqrt_nonneg b
    have hm := Real.sqrt_le_sqrt hab
    rw [abs_of_nonneg (by linarith)]
    rcases le_total 0 a with h0 | h0
    · have e1 := Real.mul_self_sqrt h0
      rcases le_total 0 b with h1 | h1
      · have e2 := Real.mul_self_sqrt h1
        nlinarith
      · rw [Real.sqrt_eq_zero_of_nonpos h1]; nlinarith
    · rw [Real.sqrt_eq_zero_of_nonpos h0, Real.sqrt_eq_zero_of_nonpos (hab.trans h0)]; nlinarith
  rcases le_total b a with h | h
  · exact key a b h
  · rw [abs_sub_comm]
    have := key b a h
    nlinarith

/-- a rounded square root of an approximate square -/
theorem sqrt_round {u δ w w' N E : ℝ} (hδ : |δ| ≤ u) (hw : |w' - N| ≤ E) (e : w = √w' * (1 + δ)) :
    |w - √N| ≤ (1 + u) * √E + u * √N := by
  have h1 := (abs_sqrt_sub_le w' N).trans (Real.sqrt_le_sqrt hw)
  have h2 : w - √N = (√w' - √N) * (1 + δ) + δ * √N := by rw [e]; ring
  have h3 : |1 + δ| ≤ 1 + u := by
    have := abs_add_le (1 : ℝ) δ
    rw [abs_one] at this; linarith
  rw [h2]
  have hN := Real.sqrt_nonneg N
  have hE := Real.sqrt_nonneg E
  calc |(√w' - √N) * (1 + δ) + δ * √N| ≤ |√w' - √N| * |1 + δ| + |δ| * √N := by
        have := abs_add_le ((√w' - √N) * (1 + δ)) (δ * √N)
        rwa [abs_mul, abs_mul, abs_of_nonneg hN] at this
    _ ≤ √E * (1 + u) + u * √N := by
        have a1 := mul_le_mul h1 h3 (abs_nonneg _) hE
        have a2 := mul_le_mul_of_nonneg_right hδ hN
        linarith
    _ = _ := by ring

/-- **C85, norm.** The number returned by `X.norm()`, for tensors of any format but tensor trains,
differs from the Frobenius norm of the exact tensor by at most
`(1+u) √((1+u)^n - 1) ‖ |X| ‖ + u ‖X‖`. -/
theorem C85_norm {u : ℝ} (hu : 0 ≤ u) {X : Tensor ℝ} (hX : X.Valid) (dX : X.Distinct) {v : ℝ}
    (hv : X.FlNorm u v) :
    |v - √(normSq X.toNumpy)| ≤ (1 + u) * (√(flErr u (X.dotRounds X)) * √(normSq X.abs.toNumpy))
      + u * √(normSq X.toNumpy) := by
  have hE : 0 ≤ flErr u (X.dotRounds X) := sub_nonneg.2 (one_le_pow_u hu _)
  rw [← Real.sqrt_mul hE]
  have main : ∀ {w δ : ℝ}, X.FlDot u X w → |δ| ≤ u → v = √|w| * (1 + δ) →
      |v - √(normSq X.toNumpy)| ≤ (1 + u) * √(flErr u (X.dotRounds X) * normSq X.abs.toNumpy)
        + u * √(normSq X.toNumpy) := by
    intro w δ hw hδ e
    refine sqrt_round hδ ?_ e
    have := C85_dot hu hX hX dX dX rfl hw
    rw [← normSq_inner, ← normSq_inner] at this
    refine le_trans ?_ this
    have := abs_abs_sub_abs_le w (normSq X.toNumpy)
    rwa [abs_of_nonneg (normSq_nonneg _)] at this
  cases X with
  | sum X => obtain ⟨w, δ, h1, h2, h3⟩ := hv; exact main h1 h2 h3
  | leaf X =>
    cases X with
    | dense X => obtain ⟨w, δ, h1, h2, h3⟩ := hv; exact main h1 h2 h3
    | cp X => obtain ⟨w, δ, h1, h2, h3⟩ := hv; exact main h1 h2 h3
    | tucker X => obtain ⟨w, δ, h1, h2, h3⟩ := hv; exact main h1 h2 h3
    | tt X => exact hv.elim
    | sparse S =>
      obtain ⟨w, δ, h1, h2, h3⟩ := hv
      refine sqrt_round h2 ?_ h3
      have k := (FlVal.near_le hu h1).1
      have e : ∀ S : Sparse ℝ, S.Valid → S.Distinct →
          Leaf.vdot (S.entries.map Prod.snd) (S.entries.map Prod.snd) = normSq S.toNumpy := by
        intro S hS dS
        have := C12 laChoice_qr (.leaf (.sparse S)) hS dS trivial
        have := Except.ok.inj this
        have := (Real.sqrt_inj (List.sum_nonneg (by
          intro x hx
          obtain ⟨y, _, rfl⟩ := List.mem_map.1 hx
          exact sq_nonneg _)) (normSq_nonneg _)).1 this
        refine Eq.trans ?_ this
        unfold Leaf.vdot
        rw [List.zipWith_self, List.map_map]
        congr 1
        exact List.map_congr_left fun e _ => (sq _).symm
      have e2 := e S.abs (Leaf.abs_valid (X := .sparse S) hX) (Leaf.abs_distinct (X := .sparse S) dX)
      have e3 : S.abs.entries.map Prod.snd = (S.entries.map Prod.snd).map (|·|) := by
        simp [Sparse.abs, List.map_map, Function.comp_def]
      rw [e3] at e2
      rw [e S hX dX, e2, List.length_map] at k
      exact k

/-- **C85, relative errors.** For tensors whose stored numbers are all nonnegative, the errors are
relative ones: `to_numpy` and `dot` are exact up to a factor between `1 - ((1+u)^n - 1)` and
`(1+u)^n`. -/
theorem C85_relative {u : ℝ} (hu : 0 ≤ u) {X Y : Tensor ℝ} (hX : X.Valid) (hY : Y.Valid)
    (dX : X.Distinct) (dY : Y.Distinct) (hs : X.shape = Y.shape) (pX : X.abs = X) (pY : Y.abs = Y) :
    (∀ B, X.FlToNumpy u B → ∀ i,
      |B.get i - X.toNumpy.get i| ≤ flErr u X.denseRounds * X.toNumpy.get i) ∧
    ∀ v, X.FlDot u Y v → |v - innerND X.toNumpy Y.toNumpy|
      ≤ flErr u (X.dotRounds Y) * innerND X.toNumpy Y.toNumpy := by
  refine ⟨fun B hB i => ?_, fun v hv => ?_⟩
  · have := (C85_to_numpy hu hX hB).2 i
    rwa [pX] at this
  · have := C85_dot hu hX hY dX dY hs hv
    rwa [pX, pY] at this

/-- **C85, size of the constants.** `(1+u)^n - 1 ≤ n u / (1 - n u)`, the usual `γ_n`. -/
theorem C85_gamma {u : ℝ} (hu : 0 ≤ u) (n : ℕ) (h : n * u < 1) : flErr u n ≤ n * u / (1 - n * u) := by
  unfold flErr
  rcases Nat.eq_zero_or_pos n with rfl | hn
  · simp
  have hu1 : u < 1 := by
    have : (1 : ℝ) ≤ n := by exact_mod_cast hn
    nlinarith
  have hb := one_add_mul_le_pow (a := -u) (by linarith) n
  have h1 : (1 + u) ^ n * (1 + -u) ^ n ≤ 1 := by
    rw [← mul_pow]
    apply pow_le_one₀
    · nlinarith
    · nlinarith
  have hp : 0 < (1 + u) ^ n := by positivity
  have h2 : (1 + u) ^ n * (1 - n * u) ≤ 1 := by
    refine le_trans (mul_le_mul_of_nonneg_left ?_ hp.le) h1
    linarith
  rw [le_div_iff₀ (by linarith)]
  linarith

/-- **C85, exact arithmetic.** With `u = 0` the programs return what the exact model says. -/
theorem C85_exact {X Y : Tensor ℝ} (hX : X.Valid) (hY : Y.Valid)
    (dX : X.Distinct) (dY : Y.Distinct) (hs : X.shape = Y.shape) :
    (∀ B, X.FlToNumpy 0 B ↔ B = X.toNumpy) ∧ ∀ v, X.FlDot 0 Y v ↔ v = X.dot Y := by
  refine ⟨fun B => ⟨fun hB => ?_, fun e => e ▸ Tensor.toNumpy_exact le_rfl X⟩,
    fun v => ⟨fun hv => ?_, fun e => e ▸ Tensor.dot_exact le_rfl hX hY hs⟩⟩
  · obtain ⟨h1, h2⟩ := C85_to_numpy le_rfl hX hB
    refine ND.ext' (h1.trans (Tensor.toNumpy_shape hX).symm) fun i _ => ?_
    have := h2 i
    simp only [flErr, add_zero, one_pow, sub_self, zero_mul] at this
    exact sub_eq_zero.1 (abs_nonpos_iff.1 this)
  · have := C85_dot le_rfl hX hY dX dY hs hv
    simp only [flErr, add_zero, one_pow, sub_self, zero_mul] at this
    rw [Tensor.dot_eq hX hY dX dY hs]
    exact sub_eq_zero.1 (abs_nonpos_iff.1 this)

/-- **C85, runs exist.** For every `u ≥ 0` the exact results are among the possible ones, so the
programs have a result in the model. -/
theorem C85_runs {u : ℝ} (hu : 0 ≤ u) {X Y : Tensor ℝ} (hX : X.Valid) (hY : Y.Valid)
    (hs : X.shape = Y.shape) :
    X.FlToNumpy u X.toNumpy ∧ X.FlDot u Y (X.dot Y) ∧
      ∀ Z : Leaf ℝ, ∀ g, Z.gather? = some g → ∃ G, Z.FlGather u = some G ∧ ∀ idxs, G idxs (g idxs) :=
  ⟨X.toNumpy_exact hu, Tensor.dot_exact hu hX hY hs, fun _ _ hg => Leaf.gather_exact hu hg⟩

/-- a `1 × 1` tensor train of rank 1 with the value 1 -/
noncomputable def f85 : TT ℝ := ⟨[ND.ofFn [1, 1, 1] fun _ => 1, ND.ofFn [1, 1, 1] fun _ => 1]⟩

theorem f85_valid : f85.Valid := ⟨by simp [f85], 1, 1, rfl, 1, 1, rfl, rfl⟩

theorem f85_abs : f85.abs = f85 := by
  have : (ND.ofFn [1, 1, 1] fun _ => (1 : ℝ)).abs = ND.ofFn [1, 1, 1] fun _ => (1 : ℝ) := by
    refine ND.ext' rfl fun i hi => ?_
    rw [ND.abs_get]
    erw [ND.ofFn_get hi]
    exact abs_one
  simp [f85, TT.abs, this]

/-- **C85, the bound for to_numpy is attained**: with one rounding of the single product upwards,
`to_numpy` of the tensor `1 · 1` returns `1 + u`. -/
theorem C85_sharp {u : ℝ} (hu : 0 ≤ u) : ∃ B, (Tensor.leaf (.tt f85)).FlToNumpy u B ∧
    |B.get [0, 0] - f85.toNumpy.get [0, 0]|
      = flErr u (Tensor.leaf (.tt f85)).denseRounds * (Tensor.leaf (.tt f85)).abs.toNumpy.get [0, 0] ∧
    B.get [0, 0] = 1 + u := by
  have e0 : f85.toNumpy.get [0, 0] = 1 := by
    rw [TT.toNumpy_get f85_valid]
    simp [ttEntry, ttVal, f85, ND.ofFn_get', ND.dim]
  have e1 : (Tensor.leaf (.tt f85)).denseRounds = 1 := rfl
  have e2 : (Tensor.leaf (.tt f85)).abs.toNumpy.get [0, 0] = 1 := by
    show f85.abs.toNumpy.get [0, 0] = 1
    rw [f85_abs, e0]
  refine ⟨ND.ofFn [1, 1] fun _ => 1 + u, ?_, ?_, by simp [ND.ofFn_get']⟩
  · refine ⟨ND.ofFn [1, 1, 1] fun _ => 1 + u, ⟨ND.ofFn [1, 1, 1] fun _ => 1 + u, ⟨rfl, fun i hi => ⟨1, ?_, ?_⟩⟩, rfl⟩, ?_⟩
    · simp [ND.lbSummed, ND.lbDim, ND.lbGet?, ND.ndim]
    · have hi : InR [1, 1, 1] i := hi
      match i, hi with
      | [a, b, c], ⟨ha, hb, hc, _⟩ =>
        obtain rfl : a = 0 := by omega
        obtain rfl : b = 0 := by omega
        obtain rfl : c = 0 := by omega
        have g1 := ND.es_ej_jkl_get (A := (ND.ofFn [1, 1, 1] fun _ => (1 : ℝ)).reshape [1, 1])
          (C := ND.ofFn [1, 1, 1] fun _ => (1 : ℝ)) (s := [1]) (q := 1) rfl rfl [0] rfl 0 0
        have g2 := ND.es_ej_jkl_get (A := ((ND.ofFn [1, 1, 1] fun _ => (1 : ℝ)).reshape [1, 1]).abs)
          (C := (ND.ofFn [1, 1, 1] fun _ => (1 : ℝ)).abs) (s := [1]) (q := 1) rfl rfl [0] rfl 0 0
        have k1 : (ND.ofFn [1, 1, 1] fun _ => (1 : ℝ)).get [0, 0, 0] = 1 := by simp [ND.ofFn_get']
        have k2 : ((ND.ofFn [1, 1, 1] fun _ => (1 : ℝ)).reshape [1, 1]).get [0, 0] = 1 := by
          simp [ND.reshape, ND.ofFn_get', ravel, unravel]
        simp only [Finset.sum_range_one, ND.abs_get, List.cons_append, List.nil_append, k1, k2] at g1 g2
        have k3 : (ND.ofFn [1, 1, 1] fun _ => 1 + u).get [0, 0, 0] = 1 + u := by simp [ND.ofFn_get']
        have := FlVal.mul (FlVal.exact (u := u) 1) (FlVal.exact 1) (δ := u) (abs_of_nonneg hu).le
        have e : (1 : ℝ) * 1 * (1 + u) = 1 + u := by ring
        rw [e, ← g1, ← g2, ← k3] at this
        exact this
    · refine ND.ext' rfl fun i hi => ?_
      have hi : InR [1, 1] i := hi
      match i, hi with
      | [a, b], ⟨ha, hb, _⟩ =>
        obtain rfl : a = 0 := by omega
        obtain rfl : b = 0 := by omega
        simp [ND.reshape, ND.ofFn_get', ravel, unravel]
  · rw [e0, e1, e2]
    simp only [flErr, pow_one, ND.ofFn_get', mul_one]
    rw [if_pos (by simp)]
    rw [show 1 + u - 1 = u by ring, abs_of_nonneg hu]

/-- a sparse tensor with one entry `-3` -/
def s85 : Sparse ℝ := ⟨[1, 1], [([0, 0], -3)]⟩

theorem s85_valid : s85.Valid := by
  intro e he
  simp only [s85, List.mem_singleton] at he
  subst he
  simp [s85]

/-- the hypotheses of `C85_dot`, for a lazy sum and a sparse tensor -/
example {u : ℝ} (hu : 0 ≤ u) : ∃ X Y : Tensor ℝ, X.Valid ∧ Y.Valid ∧ X.Distinct ∧ Y.Distinct ∧
    X.shape = Y.shape ∧ X = .sum ⟨[1, 1], [.tt f85, .sparse s85]⟩ ∧ Y = .leaf (.sparse s85) ∧
    X.dotRounds Y = 4 ∧ X.denseRounds = 3 ∧ X.FlDot u Y (X.dot Y) ∧ X.abs ≠ X := by
  have hv : (Tensor.sum ⟨[1, 1], [.tt f85, .sparse s85]⟩ : Tensor ℝ).Valid := by
    intro t ht
    simp only [List.mem_cons, List.not_mem_nil, or_false] at ht
    rcases ht with rfl | rfl
    · exact ⟨f85_valid, rfl⟩
    · exact ⟨s85_valid, rfl⟩
  refine ⟨_, .leaf (.sparse s85), hv, s85_valid, ?_, by simp [Tensor.Distinct, Leaf.Distinct, Sparse.Distinct, s85], rfl, rfl, rfl,
    rfl, rfl, Tensor.dot_exact (X := Tensor.sum _) (Y := .leaf (.sparse s85)) hu hv s85_valid rfl, ?_⟩
  · intro t ht
    simp only [List.mem_cons, List.not_mem_nil, or_false] at ht
    rcases ht with rfl | rfl
    · trivial
    · simp [Leaf.Distinct, Sparse.Distinct, s85]
  · intro h
    simp only [Tensor.abs, TSum.abs, Leaf.abs, List.map_cons, List.map_nil, Sparse.abs, s85, Tensor.sum.injEq,
      TSum.mk.injEq, List.cons.injEq, Leaf.sparse.injEq, Sparse.mk.injEq, Prod.mk.injEq] at h
    have := h.2.2.1.2.1.2
    rw [abs_neg, abs_of_pos (by norm_num)] at this
    norm_num at this

/-- the hypotheses of `C85_norm` -/
example {u : ℝ} (hu : 0 ≤ u) : (Tensor.leaf (.sparse s85)).FlNorm u (3 * (1 + u)) := by
  refine ⟨9, u, ⟨1, le_rfl, ?_⟩, (abs_of_nonneg hu).le, ?_⟩
  · have := FlVal.mul (FlVal.exact (u := u) (-3)) (FlVal.exact (-3)) (δ := 0) (by simpa using hu)
    simp only [s85, Leaf.vdot, List.map_cons, List.map_nil, List.zipWith_cons_cons, List.zipWith_nil_left,
      List.sum_cons, List.sum_nil, add_zero]
    convert this using 1
    norm_num
  · rw [show (9 : ℝ) = 3 ^ 2 by norm_num, Real.sqrt_sq (by norm_num)]

/-- the size of the constant in double precision for a sum of a million terms -/
example : flErr (2 ^ (-53 : ℤ)) 1000000 ≤ 2 / 10 ^ 10 := by
  refine (C85_gamma (by positivity) _ (by norm_num)).trans ?_
  norm_num

end TTS.Props
