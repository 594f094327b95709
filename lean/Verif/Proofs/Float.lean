import Mathlib.Tactic.Linarith
import Mathlib.Tactic.Ring
import Mathlib.Tactic.Positivity
import Mathlib.Algebra.Order.BigOperators.Ring.List
import Verif.Model.Float
import Verif.NDLemmas

/-! Rounding errors through one operation. -/

namespace TTS
open Finset ND

/-- `v` approximates `x` with relative error `p - 1` with respect to `a ≥ |x|`. -/
def Near (p v x a : ℝ) : Prop := |v - x| ≤ (p - 1) * a ∧ |x| ≤ a

namespace Near
variable {p q v x a w y b u δ : ℝ}

theorem nonneg (h : Near p v x a) : 0 ≤ a := (abs_nonneg x).trans h.2

theorem mono (h : Near p v x a) (hpq : p ≤ q) : Near q v x a :=
  ⟨h.1.trans (mul_le_mul_of_nonneg_right (by linarith) h.nonneg), h.2⟩

theorem abs_le (h : Near p v x a) : |v| ≤ p * a := by
  have := abs_sub_abs_le_abs_sub v x
  have h1 := h.1; have h2 := h.2
  linarith

theorem rfl' (x : ℝ) : Near 1 x x |x| := by constructor <;> simp

theorem of_eq (h : |x| ≤ a) : Near 1 x x a := by constructor <;> simp [h]

theorem mul (hp : 1 ≤ p) (_hq : 1 ≤ q) (h : Near p v x a) (k : Near q w y b) :
    Near (p * q) (v * w) (x * y) (a * b) := by
  have ha := h.nonneg; have hb := k.nonneg
  constructor
  · have e : v * w - x * y = (v - x) * y + v * (w - y) := by ring
    rw [e]
    calc |(v - x) * y + v * (w - y)| ≤ |v - x| * |y| + |v| * |w - y| := by
          rw [← abs_mul, ← abs_mul]; exact abs_add_le _ _
      _ ≤ ((p - 1) * a) * b + (p * a) * ((q - 1) * b) := by
          apply add_le_add
          · exact mul_le_mul h.1 k.2 (abs_nonneg _) (mul_nonneg (by linarith) ha)
          · exact mul_le_mul h.abs_le k.1 (abs_nonneg _) (mul_nonneg (by linarith) ha)
      _ = (p * q - 1) * (a * b) := by ring
  · rw [abs_mul]; exact mul_le_mul h.2 k.2 (abs_nonneg _) ha

theorem add (h : Near p v x a) (k : Near p w y b) : Near p (v + w) (x + y) (a + b) := by
  constructor
  · have e : v + w - (x + y) = (v - x) + (w - y) := by ring
    rw [e]; have := abs_add_le (v - x) (w - y); have h1 := h.1; have k1 := k.1
    linarith
  · have := abs_add_le x y; have h2 := h.2; have k2 := k.2; linarith

/-- `w` approximates the computed `v`, relative to `b ≤ p a`. -/
theorem trans (h : Near p v x a) (k : |w - v| ≤ (q - 1) * b) (hq : 1 ≤ q) (hb : b ≤ p * a) :
    Near (q * p) w x a := by
  refine ⟨?_, h.2⟩
  have e : w - x = (w - v) + (v - x) := by ring
  rw [e]
  have := abs_add_le (w - v) (v - x); have h1 := h.1
  have : (q - 1) * b ≤ (q - 1) * (p * a) := mul_le_mul_of_nonneg_left hb (by linarith)
  linarith

theorem round (hp : 1 ≤ p) (hδ : |δ| ≤ u) (h : Near p v x a) :
    Near ((1 + u) * p) (v * (1 + δ)) x a := by
  have hu : 0 ≤ u := (abs_nonneg δ).trans hδ
  refine h.trans (b := |v|) ?_ (by linarith) h.abs_le
  have e : v * (1 + δ) - v = δ * v := by ring
  rw [e, abs_mul]
  have := mul_le_mul_of_nonneg_right hδ (abs_nonneg v)
  linarith

theorem sum {ι : Type*} (s : Finset ι) {f g h : ι → ℝ} (H : ∀ i ∈ s, Near p (f i) (g i) (h i)) :
    Near p (∑ i ∈ s, f i) (∑ i ∈ s, g i) (∑ i ∈ s, h i) := by
  constructor
  · rw [← Finset.sum_sub_distrib, Finset.mul_sum]
    exact (Finset.abs_sum_le_sum_abs _ _).trans (Finset.sum_le_sum fun i hi => (H i hi).1)
  · exact (Finset.abs_sum_le_sum_abs _ _).trans (Finset.sum_le_sum fun i hi => (H i hi).2)

theorem sumIdx : ∀ (s : List ℕ) {f g h : List ℕ → ℝ}, (∀ i, InR s i → Near p (f i) (g i) (h i)) →
    Near p (sumIdx s f) (sumIdx s g) (sumIdx s h)
  | [], f, g, h, H => H [] trivial
  | n :: s, f, g, h, H => by
    simp only [sumIdx_cons]
    exact Near.sum _ fun k hk => sumIdx s fun i hi => H (k :: i) ⟨Finset.mem_range.1 hk, hi⟩

end Near

theorem one_le_pow_u {u : ℝ} (hu : 0 ≤ u) (n : ℕ) : 1 ≤ (1 + u) ^ n := one_le_pow₀ (by linarith)

/-- The error of a floating point evaluation. -/
theorem FlVal.near {u : ℝ} (hu : 0 ≤ u) {k : ℕ} {x a v : ℝ} (h : FlVal u k x a v) :
    Near ((1 + u) ^ k) v x a := by
  induction h with
  | exact x => simpa using Near.rfl' x
  | @add k l x a v y b w δ _ _ hδ h1 h2 =>
    have m1 := h1.mono (pow_le_pow_right₀ (by linarith) (le_max_left k l) : (1 + u) ^ k ≤ _)
    have m2 := h2.mono (pow_le_pow_right₀ (by linarith) (le_max_right k l) : (1 + u) ^ l ≤ _)
    have := (m1.add m2).round (one_le_pow_u hu _) hδ
    rwa [← pow_succ'] at this
  | @mul k l x a v y b w δ _ _ hδ h1 h2 =>
    have := (h1.mul (one_le_pow_u hu _) (one_le_pow_u hu _) h2).round
      (one_le_mul_of_one_le_of_one_le (one_le_pow_u hu _) (one_le_pow_u hu _)) hδ
    rwa [← pow_add, ← pow_succ'] at this

theorem FlVal.near_le {u : ℝ} (hu : 0 ≤ u) {n : ℕ} {x a v : ℝ} (h : ∃ k ≤ n, FlVal u k x a v) :
    Near ((1 + u) ^ n) v x a := by
  obtain ⟨k, hk, h⟩ := h
  exact (h.near hu).mono (pow_le_pow_right₀ (by linarith) hk)

/-! ### Arrays -/

theorem ND.abs_shape (A : ND ℝ) : A.abs.shape = A.shape := rfl

theorem ND.abs_get (A : ND ℝ) (i : List ℕ) : A.abs.get i = |A.get i| := by
  by_cases h : InR A.shape i
  · exact ofFn_get h
  · rw [A.abs.supp i h, A.supp i h, abs_zero]

/-- Entrywise `Near`. -/
def NDNear (p : ℝ) (C A M : ND ℝ) : Prop :=
  C.shape = A.shape ∧ M.shape = A.shape ∧ ∀ i, Near p (C.get i) (A.get i) (M.get i)

namespace NDNear
variable {p q u : ℝ} {C A M : ND ℝ}

theorem mono (h : NDNear p C A M) (hpq : p ≤ q) : NDNear q C A M :=
  ⟨h.1, h.2.1, fun i => (h.2.2 i).mono hpq⟩

theorem rfl' (A : ND ℝ) : NDNear 1 A A A.abs :=
  ⟨rfl, rfl, fun i => by rw [abs_get]; exact Near.rfl' _⟩

/-- Any re-indexing of the entries keeps the approximation. -/
theorem reindex (h : NDNear p C A M) (s : List ℕ) (g : List ℕ → List ℕ) :
    NDNear p (ofFn s fun i => C.get (g i)) (ofFn s fun i => A.get (g i))
      (ofFn s fun i => M.get (g i)) := by
  refine ⟨rfl, rfl, fun i => ?_⟩
  simp only [ofFn_get']
  split
  · exact h.2.2 _
  · constructor <;> simp

theorem reshape (h : NDNear p C A M) (s : List ℕ) :
    NDNear p (C.reshape s) (A.reshape s) (M.reshape s) := by
  have := h.reindex s fun i => unravel A.shape (ravel s i)
  simpa only [ND.reshape, h.1, h.2.1] using this

theorem dim_eq (h : NDNear p C A M) (k : ℕ) : C.dim k = A.dim k := by simp only [ND.dim, h.1]
theorem dim_eq' (h : NDNear p C A M) (k : ℕ) : M.dim k = A.dim k := by simp only [ND.dim, h.2.1]
theorem ndim_eq (h : NDNear p C A M) : C.ndim = A.ndim := by simp only [ND.ndim, h.1]
theorem ndim_eq' (h : NDNear p C A M) : M.ndim = A.ndim := by simp only [ND.ndim, h.2.1]

theorem matT (h : NDNear p C A M) : NDNear p C.matT A.matT M.matT := by
  have := h.reindex [A.dim 1, A.dim 0] fun i => [i.getD 1 0, i.getD 0 0]
  simpa only [ND.matT, h.dim_eq, h.dim_eq'] using this

theorem transpose (h : NDNear p C A M) (perm : List ℕ) :
    NDNear p (C.transpose perm) (A.transpose perm) (M.transpose perm) := by
  have := h.reindex (perm.map fun a => A.dim a)
    fun i => (List.range A.ndim).map fun a => i.getD (perm.idxOf a) 0
  simpa only [ND.transpose, h.dim_eq, h.dim_eq', h.ndim_eq, h.ndim_eq'] using this

theorem cols (h : NDNear p C A M) (a b : ℕ) : NDNear p (C.cols a b) (A.cols a b) (M.cols a b) := by
  have := h.reindex [A.dim 0, min b (A.dim 1) - a] fun i => [i.getD 0 0, a + i.getD 1 0]
  simpa only [ND.cols, h.dim_eq, h.dim_eq'] using this

theorem zeros (s : List ℕ) (hp : 1 ≤ p) : NDNear p (ND.zeros s) (ND.zeros s) (ND.zeros s) :=
  ⟨rfl, rfl, fun i => by constructor <;> simp⟩

/-- The result of a floating point operation on approximate arguments: `E` is the operation on the
approximate arguments, `F` on their absolute values, `A` on the exact ones, `M` on the bounds. -/
theorem op {n : ℕ} {E F : ND ℝ} (hu : 0 ≤ u) (hC : FlND u n C E F) (hE : NDNear p E A M)
    (hF : ∀ i, F.get i ≤ p * M.get i) : NDNear ((1 + u) ^ n * p) C A M := by
  refine ⟨hC.1.trans hE.1, hE.2.1, fun i => ?_⟩
  by_cases hi : InR E.shape i
  · have := FlVal.near_le hu (hC.2 i hi)
    exact (hE.2.2 i).trans this.1 (one_le_pow_u hu n) (hF i)
  · have h0 : C.get i = 0 := C.supp i (by rw [hC.1]; exact hi)
    have h1 : A.get i = 0 := A.supp i (by rw [← hE.1]; exact hi)
    have h2 : M.get i = 0 := M.supp i (by rw [hE.2.1, ← hE.1]; exact hi)
    rw [h0, h1, h2]; constructor <;> simp

end NDNear

/-! ### einsum -/

/-- One operand of an einsum with its approximation, exact value and bound. -/
structure NearOp where
  /-- subscripts -/
  lab : List Lb
  /-- error factor -/
  p : ℝ
  C : ND ℝ
  A : ND ℝ
  M : ND ℝ
  hp : 1 ≤ p
  h : NDNear p C A M

theorem near_prod (ops : List NearOp) (g : NearOp → List ℕ) :
    Near (ops.map NearOp.p).prod ((ops.map fun o => o.C.get (g o)).prod)
      ((ops.map fun o => o.A.get (g o)).prod) ((ops.map fun o => o.M.get (g o)).prod) ∧
    1 ≤ (ops.map NearOp.p).prod := by
  induction ops with
  | nil => simp [Near]
  | cons o ops ih =>
    simp only [List.map_cons, List.prod_cons]
    exact ⟨(o.h.2.2 _).mul o.hp ih.2 ih.1, one_le_mul_of_one_le_of_one_le o.hp ih.2⟩

theorem abs_prod_le (ops : List NearOp) (g : NearOp → List ℕ) :
    (ops.map fun o => o.C.abs.get (g o)).prod
      ≤ (ops.map NearOp.p).prod * (ops.map fun o => o.M.get (g o)).prod := by
  have := (near_prod ops g).1.abs_le
  refine le_trans (le_of_eq ?_) this
  clear this
  induction ops with
  | nil => simp
  | cons o ops ih => simp only [List.map_cons, List.prod_cons, abs_mul]; rw [ih, abs_get]

theorem sumIdx_le {f g : List ℕ → ℝ} : ∀ (s : List ℕ), (∀ i, InR s i → f i ≤ g i) →
    sumIdx s f ≤ sumIdx s g
  | [], h => h [] trivial
  | n :: s, h => by
    simp only [sumIdx_cons]
    refine Finset.sum_le_sum fun k hk => ?_
    exact sumIdx_le (f := fun i => f (k :: i)) (g := fun i => g (k :: i)) s
      fun i hi => h (k :: i) ⟨Finset.mem_range.1 hk, hi⟩

theorem nearOps_dims {α : Type*} (ops : List NearOp) (f : NearOp → ND ℝ)
    (hf : ∀ o : NearOp, (f o).shape = o.A.shape) (h : List Lb → List ℕ → α) :
    ((ops.map fun o => (o.lab, f o)).map fun p => h p.1 p.2.shape)
      = ops.map fun o => h o.lab o.A.shape := by
  simp [List.map_map, Function.comp_def, hf]

theorem einsum_near_eq (ops : List NearOp) (f : NearOp → ND ℝ)
    (hf : ∀ o : NearOp, (f o).shape = o.A.shape) (out : List Lb) :
    einsum (ops.map fun o => (o.lab, f o)) out =
      ofFn (out.map (lbDim (ops.map fun o => (o.lab, o.A.shape)))) fun idx =>
        sumIdx ((lbSummed out (ops.flatMap NearOp.lab)).map
          (lbDim (ops.map fun o => (o.lab, o.A.shape)))) fun s =>
          (ops.map fun o => (f o).get (o.lab.map
            (lbVal (out ++ lbSummed out (ops.flatMap NearOp.lab)) (idx ++ s)))).prod := by
  have h1 : ((ops.map fun o => (o.lab, f o)).map fun p => (p.1, p.2.shape))
      = ops.map fun o => (o.lab, o.A.shape) := by
    simp [List.map_map, Function.comp_def, hf]
  have h2 : (ops.map fun o => (o.lab, f o)).flatMap Prod.fst = ops.flatMap NearOp.lab := by
    simp [List.flatMap_map]
  unfold einsum
  simp only [h1, h2, List.map_map, Function.comp_def]

theorem NDNear.einsum_exact (ops : List NearOp) (out : List Lb) :
    NDNear (ops.map NearOp.p).prod (einsum (ops.map fun o => (o.lab, o.C)) out)
      (einsum (ops.map fun o => (o.lab, o.A)) out) (einsum (ops.map fun o => (o.lab, o.M)) out) := by
  rw [einsum_near_eq ops NearOp.C (fun o => o.h.1), einsum_near_eq ops NearOp.A (fun o => rfl),
    einsum_near_eq ops NearOp.M (fun o => o.h.2.1)]
  refine ⟨rfl, rfl, fun i => ?_⟩
  simp only [ofFn_get']
  split
  · exact Near.sumIdx _ fun s _ => (near_prod ops fun o => o.lab.map
      (lbVal (out ++ lbSummed out (ops.flatMap NearOp.lab)) (i ++ s))).1
  · constructor <;> simp

theorem einsumTerms_near (ops : List NearOp) (out : List Lb) :
    einsumTerms (ops.map fun o => (o.lab, o.C)) out
      = einsumTerms (ops.map fun o => (o.lab, o.A)) out := by
  have h1 : ((ops.map fun o => (o.lab, o.C)).map fun p => (p.1, p.2.shape))
      = ops.map fun o => (o.lab, o.A.shape) := by
    simp [List.map_map, Function.comp_def, fun o : NearOp => o.h.1]
  have h1' : ((ops.map fun o => (o.lab, o.A)).map fun p => (p.1, p.2.shape))
      = ops.map fun o => (o.lab, o.A.shape) := by
    simp [List.map_map, Function.comp_def]
  unfold einsumTerms
  rw [h1, h1']
  simp [List.flatMap_map]

/-- `np.einsum` on approximate operands. -/
theorem NDNear.einsum {u : ℝ} (hu : 0 ≤ u) (ops : List NearOp) (out : List Lb) {C : ND ℝ}
    (h : FlEinsum u (ops.map fun o => (o.lab, o.C)) out C) :
    NDNear ((1 + u) ^ (einsumTerms (ops.map fun o => (o.lab, o.A)) out + ops.length - 2)
      * (ops.map NearOp.p).prod) C
      (einsum (ops.map fun o => (o.lab, o.A)) out) (einsum (ops.map fun o => (o.lab, o.M)) out) := by
  unfold FlEinsum at h
  rw [einsumTerms_near, List.length_map] at h
  refine NDNear.op hu h (NDNear.einsum_exact ops out) fun i => ?_
  have e : (ops.map fun o => (o.lab, o.C)).map (fun p => (p.1, p.2.abs))
      = ops.map fun o => (o.lab, o.C.abs) := by simp [List.map_map, Function.comp_def]
  rw [e, einsum_near_eq ops (fun o => o.C.abs) (fun o => o.h.1),
    einsum_near_eq ops NearOp.M (fun o => o.h.2.1)]
  simp only [ofFn_get']
  split
  · rw [mul_sumIdx]
    exact sumIdx_le _ fun s _ => abs_prod_le ops _
  · simp

theorem NDNear.einsum2 {u : ℝ} (hu : 0 ≤ u) {p q : ℝ} {C1 A1 M1 C2 A2 M2 C : ND ℝ}
    (hp : 1 ≤ p) (hq : 1 ≤ q) (h1 : NDNear p C1 A1 M1) (h2 : NDNear q C2 A2 M2)
    (l1 l2 out : List Lb) (h : FlEinsum u [(l1, C1), (l2, C2)] out C) :
    NDNear ((1 + u) ^ einsumTerms [(l1, A1), (l2, A2)] out * (p * q)) C
      (ND.einsum [(l1, A1), (l2, A2)] out) (ND.einsum [(l1, M1), (l2, M2)] out) := by
  simpa using NDNear.einsum hu [⟨l1, p, C1, A1, M1, hp, h1⟩, ⟨l2, q, C2, A2, M2, hq, h2⟩] out h

theorem NDNear.einsum3 {u : ℝ} (hu : 0 ≤ u) {p q r : ℝ} {C1 A1 M1 C2 A2 M2 C3 A3 M3 C : ND ℝ}
    (hp : 1 ≤ p) (hq : 1 ≤ q) (hr : 1 ≤ r) (h1 : NDNear p C1 A1 M1) (h2 : NDNear q C2 A2 M2)
    (h3 : NDNear r C3 A3 M3)
    (l1 l2 l3 out : List Lb) (h : FlEinsum u [(l1, C1), (l2, C2), (l3, C3)] out C) :
    NDNear ((1 + u) ^ (einsumTerms [(l1, A1), (l2, A2), (l3, A3)] out + 1) * (p * (q * r))) C
      (ND.einsum [(l1, A1), (l2, A2), (l3, A3)] out)
      (ND.einsum [(l1, M1), (l2, M2), (l3, M3)] out) := by
  simpa using NDNear.einsum hu [⟨l1, p, C1, A1, M1, hp, h1⟩, ⟨l2, q, C2, A2, M2, hq, h2⟩,
    ⟨l3, r, C3, A3, M3, hr, h3⟩] out h

/-- einsum with an ellipsis on approximate operands. -/
theorem NDNear.einsumE {u : ℝ} (hu : 0 ≤ u) {p q : ℝ} {C1 A1 M1 C2 A2 M2 C : ND ℝ}
    (hp : 1 ≤ p) (hq : 1 ≤ q) (h1 : NDNear p C1 A1 M1) (h2 : NDNear q C2 A2 M2)
    (l1 l2 out : List Lb) (h : FlEinsumE u C1 l1 C2 l2 out C) :
    NDNear ((1 + u) ^ ((lbSummed out (l1 ++ l2)).map
      (lbDim [(l1, A1.shape.drop (A1.ndim - l1.length)), (l2, A2.shape)])).prod * (p * q)) C
      (ND.einsumE A1 l1 A2 l2 out) (ND.einsumE M1 l1 M2 l2 out) := by
  unfold FlEinsumE at h
  rw [h1.ndim_eq, h1.1, h2.1] at h
  refine NDNear.op hu h ?_ fun i => ?_
  · unfold ND.einsumE
    rw [h1.ndim_eq, h1.1, h2.1, h1.ndim_eq', h1.2.1, h2.2.1]
    refine ⟨rfl, rfl, fun i => ?_⟩
    simp only [ofFn_get']
    split
    · exact Near.sumIdx _ fun s _ => (h1.2.2 _).mul hp hq (h2.2.2 _)
    · constructor <;> simp
  · unfold ND.einsumE
    have e1 : C1.abs.ndim = A1.ndim := h1.ndim_eq
    have e2 : C1.abs.shape = A1.shape := h1.1
    have e3 : C2.abs.shape = A2.shape := h2.1
    rw [e1, e2, e3, h1.ndim_eq', h1.2.1, h2.2.1]
    simp only [ofFn_get']
    split
    · rw [mul_sumIdx]
      refine sumIdx_le _ fun s _ => ?_
      rw [abs_get, abs_get, ← abs_mul]
      exact ((h1.2.2 _).mul hp hq (h2.2.2 _)).abs_le
    · simp

/-- Matrix products of approximate operands. -/
theorem NDNear.matmul {u : ℝ} (hu : 0 ≤ u) {p q : ℝ} {C1 A1 M1 C2 A2 M2 C : ND ℝ}
    (hp : 1 ≤ p) (hq : 1 ≤ q) (h1 : NDNear p C1 A1 M1) (h2 : NDNear q C2 A2 M2)
    (h : FlMatmul u C1 C2 C) :
    NDNear ((1 + u) ^ A1.dim 1 * (p * q)) C (A1.matmul A2) (M1.matmul M2) := by
  unfold FlMatmul at h
  rw [h1.dim_eq] at h
  refine NDNear.op hu h ?_ fun i => ?_
  · unfold ND.matmul
    rw [h1.dim_eq, h1.dim_eq, h2.dim_eq, h1.dim_eq', h1.dim_eq', h2.dim_eq']
    refine ⟨rfl, rfl, fun i => ?_⟩
    simp only [ofFn_get']
    split
    · exact Near.sum _ fun s _ => (h1.2.2 _).mul hp hq (h2.2.2 _)
    · constructor <;> simp
  · unfold ND.matmul
    have e1 : ∀ k, C1.abs.dim k = A1.dim k := h1.dim_eq
    have e3 : ∀ k, C2.abs.dim k = A2.dim k := h2.dim_eq
    rw [e1, e1, e3, h1.dim_eq', h1.dim_eq', h2.dim_eq']
    simp only [ofFn_get']
    split
    · rw [Finset.mul_sum]
      refine Finset.sum_le_sum fun s _ => ?_
      rw [abs_get, abs_get, ← abs_mul]
      exact ((h1.2.2 _).mul hp hq (h2.2.2 _)).abs_le
    · simp

/-- Sums of approximate arrays. -/
theorem NDNear.add {u : ℝ} (hu : 0 ≤ u) {p : ℝ} {C1 A1 M1 C2 A2 M2 C : ND ℝ}
    (h1 : NDNear p C1 A1 M1) (h2 : NDNear p C2 A2 M2)
    (h : FlAdd u C1 C2 C) : NDNear ((1 + u) * p) C (A1.add A2) (M1.add M2) := by
  have := NDNear.op (n := 1) (p := p) (A := A1.add A2) (M := M1.add M2) hu h ?_ fun i => ?_
  · simpa using this
  · unfold ND.add
    rw [h1.1, h1.2.1]
    refine ⟨rfl, rfl, fun i => ?_⟩
    simp only [ofFn_get']
    split
    · exact (h1.2.2 _).add (h2.2.2 _)
    · constructor <;> simp
  · unfold ND.add
    have e : C1.abs.shape = A1.shape := h1.1
    rw [e, h1.2.1]
    simp only [ofFn_get']
    split
    · rw [abs_get, abs_get]
      have := (h1.2.2 i).abs_le; have := (h2.2.2 i).abs_le
      linarith
    · simp

/-- Sum over the last axis of an approximate array. -/
theorem NDNear.sumLast {u : ℝ} (hu : 0 ≤ u) {p : ℝ} {C1 A1 M1 C : ND ℝ}
    (h1 : NDNear p C1 A1 M1) (h : FlSumLast u C1 C) :
    NDNear ((1 + u) ^ (A1.shape.getLastD 0 - 1) * p) C A1.sumLast M1.sumLast := by
  unfold FlSumLast at h
  rw [h1.1] at h
  refine NDNear.op hu h ?_ fun i => ?_
  · unfold ND.sumLast
    rw [h1.1, h1.2.1]
    refine ⟨rfl, rfl, fun i => ?_⟩
    simp only [ofFn_get']
    split
    · exact Near.sum _ fun s _ => h1.2.2 _
    · constructor <;> simp
  · unfold ND.sumLast
    have e : C1.abs.shape = A1.shape := h1.1
    rw [e, h1.2.1]
    simp only [ofFn_get']
    split
    · rw [Finset.mul_sum]
      refine Finset.sum_le_sum fun s _ => ?_
      rw [abs_get]; exact (h1.2.2 _).abs_le
    · simp

/-- `np.sum` of an approximate array. -/
theorem NDNear.total {u : ℝ} (hu : 0 ≤ u) {p : ℝ} {C1 A1 M1 : ND ℝ} {v : ℝ}
    (h1 : NDNear p C1 A1 M1) (h : FlTotal u C1 v) :
    Near ((1 + u) ^ (A1.shape.prod - 1) * p) v A1.total M1.total := by
  unfold FlTotal at h
  rw [h1.1] at h
  have k := FlVal.near_le hu h
  have e : Near p C1.total A1.total M1.total := by
    unfold ND.total
    rw [h1.1, h1.2.1]
    exact Near.sumIdx _ fun s _ => h1.2.2 _
  refine e.trans k.1 (one_le_pow_u hu _) ?_
  unfold ND.total
  have e : C1.abs.shape = A1.shape := h1.1
  rw [e, h1.2.1, mul_sumIdx]
  refine sumIdx_le _ fun s _ => ?_
  rw [abs_get]; exact (h1.2.2 _).abs_le

end TTS
