import Verif.Proofs.FloatLin
import Verif.Props.Float
import Verif.Props.MPO

/-!
# C103: rounding errors of computations with tensor trains

`Model/FloatLin.lean` has the programs (`A(X)`, `X.add(Y)`, `X * c`, nested in any way), `Spec/FloatLin.lean` what they compute.
-/

namespace TTS.Props

open Finset TTS.Spec

theorem mpoChain_abs : ∀ {Ms : List (ND ℝ)} {r s : ℕ}, MPOChain r Ms s → MPOChain r (Ms.map ND.abs) s
  | [], _, _, h => h
  | _ :: _, _, _, ⟨n, m, t, h1, h2⟩ => ⟨n, m, t, h1, mpoChain_abs h2⟩

theorem mpo_abs_valid {A : MPO ℝ} (h : A.Valid) : A.abs.Valid :=
  ⟨by simpa [MPO.abs] using h.1, mpoChain_abs h.2⟩

theorem mpo_abs_in (A : MPO ℝ) : A.abs.inShape = A.inShape := by
  simp [MPO.abs, MPO.inShape, List.map_map, Function.comp_def, ND.dim, ND.abs_shape]

theorem mpo_abs_out (A : MPO ℝ) : A.abs.outShape = A.outShape := by
  simp [MPO.abs, MPO.outShape, List.map_map, Function.comp_def, ND.dim, ND.abs_shape]

theorem ttExpr_abs : ∀ {e : TTExpr}, e.Valid → e.abs.Valid ∧ e.abs.shape = e.shape
  | .tt X, h => ⟨TT.abs_valid h, TT.abs_shape X⟩
  | .apply A e, ⟨h1, h2, h3⟩ => by
    obtain ⟨k1, k2⟩ := ttExpr_abs h2
    refine ⟨⟨mpo_abs_valid h1, k1, ?_⟩, mpo_abs_out A⟩
    rw [k2, mpo_abs_in, h3]
  | .add e f, ⟨h1, h2, h3, h4⟩ => by
    obtain ⟨k1, k2⟩ := ttExpr_abs h1
    obtain ⟨l1, l2⟩ := ttExpr_abs h2
    exact ⟨⟨k1, l1, by rw [k2, l2, h3], by rw [k2]; exact h4⟩, k2⟩
  | .mul e c, h => ttExpr_abs (e := e) h

theorem tt_mul_spec {X : TT ℝ} (h : X.Valid) (c : ℝ) :
    (X.mul c).Valid ∧ (X.mul c).shape = X.shape ∧ ∀ i, ttEntry (X.mul c) i = ttEntry X i * c := by
  have h1 : (X.mul c).Valid := Leaf.mul_valid (X := .tt X) h c
  refine ⟨h1, Leaf.mul_shape (X := .tt X) h c, fun i => ?_⟩
  have := Leaf.mul_get (X := .tt X) h c i
  rw [← TT.toNumpy_get h1, ← TT.toNumpy_get h]
  exact this

theorem ttExpr_eval : ∀ {e : TTExpr}, e.Valid →
    e.eval.Valid ∧ e.eval.shape = e.shape ∧ ∀ i, ttEntry e.eval i = e.entry i
  | .tt X, h => ⟨h, rfl, fun _ => rfl⟩
  | .apply A e, ⟨h1, h2, h3⟩ => by
    obtain ⟨k1, k2, k3⟩ := ttExpr_eval h2
    obtain ⟨c1, c2, _⟩ := C50 A e.eval h1 k1 (k2.trans h3)
    refine ⟨c1, c2, fun i => ?_⟩
    obtain ⟨_, _, c3⟩ := call_chain h1.2 k1.2 (k2.trans h3)
    refine (c3 i 0 0 0 0 one_pos one_pos one_pos one_pos).trans ?_
    refine sumIdx_congr fun j _ => ?_
    show _ = mpoVal A.cores j i 0 0 * e.entry j
    rw [← k3 j]
    rfl
  | .add e f, ⟨h1, h2, h3, h4⟩ => by
    obtain ⟨k1, k2, k3⟩ := ttExpr_eval h1
    obtain ⟨l1, l2, l3⟩ := ttExpr_eval h2
    obtain ⟨a1, a2, _, a4⟩ := TT.add_spec k1 l1 (by rw [k2, l2, h3]) (by rw [k2]; exact h4)
    exact ⟨a1, a2.trans k2, fun i => (a4 i).trans (by rw [k3, l3]; rfl)⟩
  | .mul e c, h => by
    obtain ⟨k1, k2, k3⟩ := ttExpr_eval (e := e) h
    obtain ⟨m1, m2, m3⟩ := tt_mul_spec k1 c
    exact ⟨m1, m2.trans k2, fun i => (m3 i).trans (by rw [k3]; rfl)⟩

theorem ttExpr_near {u : ℝ} (hu : 0 ≤ u) : ∀ {e : TTExpr}, e.Valid → ∀ {Y : TT ℝ}, e.FlEval u Y →
    CN u e.coreRounds Y.cores e.eval.cores e.abs.eval.cores
  | .tt X, _, Y, hY => by
    cases hY
    exact CN.rfl' _
  | .apply A e, ⟨h1, h2, h3⟩, Y, ⟨X, hX, hY⟩ =>
    CN.call hu (ttExpr_near hu h2 hX) h1.2 (ttExpr_eval h2).1.2 hY
  | .add e f, ⟨h1, h2, h3, h4⟩, Y, ⟨X, Z, hX, hZ, hY⟩ => by
    subst hY
    have k := ttExpr_near hu h1 hX
    have l := ttExpr_near hu h2 hZ
    have ek : e.coreRounds.length = e.shape.length := by
      rw [← (ttExpr_eval h1).2.1, ← k.lengths.2.1]; simp [TT.shape]
    have el : f.coreRounds.length = f.shape.length := by
      rw [← (ttExpr_eval h2).2.1, ← l.lengths.2.1]; simp [TT.shape]
    exact CN.add hu k l (by rw [ek, el, h3]) (by rw [ek]; exact h4)
  | .mul e c, h, Y, ⟨X, hX, hY⟩ => by
    have k := ttExpr_near hu (e := e) h hX
    refine CN.mul hu k ?_ hY
    intro e0
    have := k.lengths.2.1
    rw [e0] at this
    exact (ttExpr_eval (e := e) h).1.1 (List.length_eq_zero_iff.1 this)

/-- What holds for every result of a program: it is well-formed, and so are bounds on its entries. -/
theorem ttExpr_result {u : ℝ} (hu : 0 ≤ u) {e : TTExpr} (he : e.Valid) {Y : TT ℝ} (hY : e.FlEval u Y) :
    Y.Valid ∧ Y.shape = e.shape ∧ Y.rank = e.eval.rank ∧
      ∀ i, Near ((1 + u) ^ e.rounds) (Y.toNumpy.get i) (e.entry i) (e.abs.entry i) ∧
        Near ((1 + u) ^ e.rounds) (Y.abs.toNumpy.get i) (ttEntry e.eval.abs i) (e.abs.entry i) := by
  have k := ttExpr_near hu he hY
  obtain ⟨v1, v2, v3⟩ := ttExpr_eval he
  obtain ⟨a1, a2⟩ := ttExpr_abs he
  obtain ⟨w1, w2, w3⟩ := ttExpr_eval a1
  have hv : Y.Valid := by
    refine ⟨fun h0 => ?_, k.chain v1.2⟩
    have := k.lengths
    rw [h0] at this
    exact v1.1 (List.length_eq_zero_iff.1 (this.2.1.trans this.1.symm))
  have hr : Y.rank = e.eval.rank := by
    have := congrArg List.tail (k.dims 0)
    simpa [TT.rank, List.map_tail] using this
  refine ⟨hv, (k.dims 1).trans v2, hr, fun i => ⟨?_, ?_⟩⟩
  · rw [TT.toNumpy_get hv, ← v3, ← w3]
    exact k.ttVal_near hu i 0 0
  · rw [TT.toNumpy_get (TT.abs_valid hv), ← w3]
    exact k.abs.ttVal_near hu i 0 0

/-- **C103, to_numpy.** A program that applies MPOs to tensor trains, adds and scales them, in any nesting and with every
numpy operation rounded: the result has the shape of the exact result and its ranks, and every entry of its dense array is
off by at most `(1+u)^n - 1` times the entry that the program computes from the absolute values of all given numbers.  `n` is
the sum of the ranks of the result plus the number of roundings in the cores. -/
theorem C103_to_numpy {u : ℝ} (hu : 0 ≤ u) {e : TTExpr} (he : e.Valid) {Y : TT ℝ} (hY : e.FlEval u Y) {B : ND ℝ}
    (hB : Y.FlToNumpy u B) :
    Y.Valid ∧ Y.rank = e.eval.rank ∧ B.shape = e.shape ∧
      ∀ i, |B.get i - e.entry i| ≤ flErr u (Y.rank.sum + e.rounds) * e.abs.entry i := by
  obtain ⟨hv, hs, hr, h⟩ := ttExpr_result hu he hY
  have t := TT.toNumpy_near hu hv hB
  refine ⟨hv, hr, t.1.trans ((TT.toNumpy_shape hv).trans hs), fun i => ?_⟩
  have hb := (h i).2.abs_le
  have := ((h i).1.trans (t.2.2 i).1 (one_le_pow_u hu _) ((le_abs_self _).trans hb)).1
  rwa [← pow_add] at this

/-- **C103, gather.** The same for single entries. -/
theorem C103_gather {u : ℝ} (hu : 0 ≤ u) {e : TTExpr} (he : e.Valid) {Y : TT ℝ} (hY : e.FlEval u Y)
    {idxs : List (List ℕ)} (hin : ∀ i ∈ idxs, InR e.shape i) {vs : List ℝ} (hv : Y.FlGather u idxs vs) :
    vs.length = idxs.length ∧ ∀ n < idxs.length,
      |vs.getD n 0 - e.entry (idxs.getD n [])| ≤ flErr u (Y.rank.sum + e.rounds) * e.abs.entry (idxs.getD n []) := by
  obtain ⟨hvY, hs, hr, h⟩ := ttExpr_result hu he hY
  obtain ⟨l, g⟩ := C85_gather hu (X := .tt Y) hvY (G := Y.FlGather u) rfl (idxs := idxs)
    (fun i hi => by rw [show (Leaf.tt Y).shape = Y.shape from rfl, hs]; exact hin i hi) hv
  refine ⟨l, fun n hn => ?_⟩
  have h := h (idxs.getD n [])
  have := (h.1.trans (g n hn) (one_le_pow_u hu _) ((le_abs_self _).trans h.2.abs_le)).1
  rwa [show (Leaf.tt Y).gatherRounds = Y.rank.sum from rfl, ← pow_add] at this

/-- **C103, dot.** The inner product of the results of two programs of the same shape. -/
theorem C103_dot {u : ℝ} (hu : 0 ≤ u) {e f : TTExpr} (he : e.Valid) (hf : f.Valid) (hs : e.shape = f.shape) {Y Z : TT ℝ}
    (hY : e.FlEval u Y) (hZ : f.FlEval u Z) {v : ℝ} (hv : Y.FlDot u Z v) :
    |v - sumIdx e.shape fun i => e.entry i * f.entry i|
      ≤ flErr u (Y.dotRounds Z + (e.rounds + f.rounds)) * sumIdx e.shape fun i => e.abs.entry i * f.abs.entry i := by
  obtain ⟨vY, sY, _, h⟩ := ttExpr_result hu he hY
  obtain ⟨vZ, sZ, _, k⟩ := ttExpr_result hu hf hZ
  have d := C85_dot hu (X := .leaf (.tt Y)) (Y := .leaf (.tt Z)) vY vZ trivial trivial (by
    show Y.shape = Z.shape
    rw [sY, sZ, hs]) hv
  have s1 : Y.toNumpy.shape = e.shape := (TT.toNumpy_shape vY).trans sY
  have s2 : Y.abs.toNumpy.shape = e.shape := by rw [TT.toNumpy_shape (TT.abs_valid vY), TT.abs_shape, sY]
  have H1 : Near ((1 + u) ^ e.rounds * (1 + u) ^ f.rounds) (innerND Y.toNumpy Z.toNumpy)
      (sumIdx e.shape fun i => e.entry i * f.entry i) (sumIdx e.shape fun i => e.abs.entry i * f.abs.entry i) := by
    unfold innerND
    rw [s1]
    exact Near.sumIdx _ fun i _ => Near.mul (one_le_pow_u hu _) (one_le_pow_u hu _) (h i).1 (k i).1
  have H2 : Near ((1 + u) ^ e.rounds * (1 + u) ^ f.rounds) (innerND Y.abs.toNumpy Z.abs.toNumpy)
      (sumIdx e.shape fun i => ttEntry e.eval.abs i * ttEntry f.eval.abs i)
      (sumIdx e.shape fun i => e.abs.entry i * f.abs.entry i) := by
    unfold innerND
    rw [s2]
    exact Near.sumIdx _ fun i _ => Near.mul (one_le_pow_u hu _) (one_le_pow_u hu _) (h i).2 (k i).2
  have := (H1.trans d (one_le_pow_u hu _) ((le_abs_self _).trans H2.abs_le)).1
  rwa [← pow_add, ← pow_add] at this

theorem flCallCore_exact {u : ℝ} (hu : 0 ≤ u) (M C : ND ℝ) : MPO.FlCallCore u M C (MPO.callCore M C) :=
  ⟨_, FlEinsum.exact hu _ (by simp) _, rfl⟩

theorem flCall_exact {u : ℝ} (hu : 0 ≤ u) : ∀ (Ms Cs : List (ND ℝ)),
    List.Forall₂ (fun (p : ND ℝ × ND ℝ) D => MPO.FlCallCore u p.1 p.2 D) (Ms.zip Cs) (List.zipWith MPO.callCore Ms Cs)
  | [], _ => by simp
  | _ :: _, [] => by simp
  | M :: Ms, C :: Cs => .cons (flCallCore_exact hu M C) (flCall_exact hu Ms Cs)

theorem flSmul_exact {u : ℝ} (hu : 0 ≤ u) (C : ND ℝ) (c : ℝ) : FlSmul u C c (C.smul c) := by
  refine flND_exact fun i _ => ?_
  rw [ND.smul_get, ND.smul_get, ND.abs_get]
  exact flVal_mul_exact hu _ _

/-- **C103, runs exist.** The exact result is among the possible ones. -/
theorem C103_runs {u : ℝ} (hu : 0 ≤ u) : ∀ {e : TTExpr}, e.Valid → e.FlEval u e.eval
  | .tt X, _ => rfl
  | .apply A e, h => ⟨_, C103_runs hu h.2.1, flCall_exact hu _ _⟩
  | .add e f, h => ⟨_, _, C103_runs hu h.1, C103_runs hu h.2.1, rfl⟩
  | .mul e c, h => by
    refine ⟨_, C103_runs hu (e := e) h, _, flSmul_exact hu _ c, ?_⟩
    have hne := (ttExpr_eval (e := e) h).1.1
    show e.eval.mul c = _
    have := TT.mul_cores hne c
    rw [show e.eval.cores.getLast hne = e.eval.cores.getLastD (ND.zeros []) by
      rw [List.getLastD_eq_getLast?, List.getLast?_eq_getLast_of_ne_nil hne, Option.getD_some]] at this
    exact congrArg TT.mk this

/-- **C103, exact arithmetic.** With `u = 0` the results have the entries that the formula gives, without an error. -/
theorem C103_exact {e : TTExpr} (he : e.Valid) :
    e.FlEval 0 e.eval ∧ (∀ Y, e.FlEval 0 Y → Y.shape = e.shape ∧ ∀ i, Y.toNumpy.get i = e.entry i) := by
  refine ⟨C103_runs le_rfl he, fun Y hY => ?_⟩
  obtain ⟨_, hs, _, h⟩ := ttExpr_result le_rfl he hY
  refine ⟨hs, fun i => ?_⟩
  have := (h i).1.1
  simp only [add_zero, one_pow, sub_self, zero_mul] at this
  exact sub_eq_zero.1 (abs_nonpos_iff.1 this)

/-- the hypotheses, for a program with all operations: `A(X.add(X * (-2)))` -/
example {u : ℝ} (hu : 0 ≤ u) : ∃ e : TTExpr, e.Valid ∧ e.FlEval u e.eval ∧ e.coreRounds = [1, 2] ∧ e.eval.rank = [2] ∧
    e = .apply (MPO.eye [1, 1]) (.add (.tt f85) (.mul (.tt f85) (-2))) := by
  have hv : TTExpr.Valid (.apply (MPO.eye [1, 1]) (.add (.tt f85) (.mul (.tt f85) (-2)))) := by
    refine ⟨⟨by simp [MPO.eye], 1, 1, 1, rfl, 1, 1, 1, rfl, rfl⟩, ⟨f85_valid, f85_valid, rfl, ?_⟩, rfl⟩
    show 2 ≤ f85.shape.length
    simp [f85, TT.shape]
  exact ⟨_, hv, C103_runs hu hv, rfl, rfl, rfl⟩

/-- a run with a rounding error: `X * 1` may return `1 + u` instead of `1` -/
example {u : ℝ} (hu : 0 ≤ u) : ∃ Y, (TTExpr.mul (.tt f85) 1).FlEval u Y ∧ ttEntry Y [0, 0] = 1 + u := by
  refine ⟨_, ⟨f85, rfl, ND.ofFn [1, 1, 1] fun _ => 1 + u, ?_, rfl⟩, ?_⟩
  · refine ⟨rfl, fun i hi => ⟨1, le_rfl, ?_⟩⟩
    have e : (f85.cores.getLastD (ND.zeros [])) = ND.ofFn [1, 1, 1] fun _ => (1 : ℝ) := rfl
    rw [e] at hi ⊢
    replace hi : InR [1, 1, 1] i := hi
    rw [ND.smul_get, ND.smul_get, ND.abs_get, ND.ofFn_get hi, ND.ofFn_get hi]
    have := FlVal.mul (FlVal.exact (u := u) 1) (FlVal.exact 1) (δ := u) (by rw [abs_of_nonneg hu])
    simpa using this
  · have hi : InR [1, 1, 1] [0, 0, 0] := by simp [InR]
    have e : ∀ c : ℝ, (ND.ofFn [1, 1, 1] fun _ => c).get [0, 0, 0] = c := fun c => ND.ofFn_get hi
    simp [ttEntry, f85, ttVal, ND.dim, e]

end TTS.Props
