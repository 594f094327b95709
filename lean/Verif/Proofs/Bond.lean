import Verif.Spec.Bond
import Verif.Spec.Contract
import Verif.Proofs.RankSpan
import Verif.Proofs.TensorSp
import Verif.Props.Round

/-!
# The rank of an unfolding is at most what the format says
-/

namespace TTS

open Finset

variable {K : Type*} [Field K]

/-- the array is a sum of `r` products across bond `k` -/
def Splits (A : ND K) (k r : ℕ) : Prop :=
  ∃ f g : List ℕ → ℕ → K, ∀ p q, p.length = k → InR A.shape (p ++ q) →
    A.get (p ++ q) = ∑ a ∈ range r, f p a * g q a

theorem Splits.rank_le {A : ND K} {k r : ℕ} (h : Splits A k r) (hk : k ≤ A.shape.length) : (A.unfolding k).rank ≤ r := by
  obtain ⟨f, g, h⟩ := h
  have e : A.unfolding k = (Matrix.of fun (i : Fin (A.shape.take k).prod) (a : Fin r) => f (unravel (A.shape.take k) i) a) *
      (Matrix.of fun (a : Fin r) (j : Fin (A.shape.drop k).prod) => g (unravel (A.shape.drop k) j) a) := by
    ext i j
    rw [Matrix.mul_apply]
    show A.get (_ ++ _) = _
    rw [h _ _ (by rw [unravel_length, List.length_take]; omega), Finset.sum_range]
    · rfl
    · have h1 := unravel_inR (s := A.shape.take k) i.2
      have h2 := unravel_inR (s := A.shape.drop k) j.2
      have := h1.append h2
      rwa [List.take_append_drop] at this
  rw [e]
  refine (Matrix.rank_mul_le_left _ _).trans ?_
  simpa using Matrix.rank_le_width (Matrix.of fun (i : Fin (A.shape.take k).prod) (a : Fin r) =>
    f (unravel (A.shape.take k) i) a)

theorem Splits.congr {A B : ND K} {k r : ℕ} (h : Splits A k r) (hs : B.shape = A.shape)
    (he : ∀ i, InR A.shape i → B.get i = A.get i) : Splits B k r := by
  obtain ⟨f, g, h⟩ := h
  refine ⟨f, g, fun p q hp hi => ?_⟩
  rw [hs] at hi
  rw [he _ hi, h p q hp hi]

theorem splits_zero {A : ND K} {k : ℕ} (h : ∀ i, InR A.shape i → A.get i = 0) : Splits A k 0 :=
  ⟨fun _ _ => 0, fun _ _ => 0, fun p q _ hi => by rw [h _ hi]; simp⟩

theorem splits_add {A B C : ND K} {k r s : ℕ} (hA : Splits A k r) (hB : Splits B k s) (h1 : A.shape = C.shape)
    (h2 : B.shape = C.shape) (h : ∀ i, InR C.shape i → C.get i = A.get i + B.get i) : Splits C k (r + s) := by
  obtain ⟨f, g, hA⟩ := hA
  obtain ⟨f', g', hB⟩ := hB
  refine ⟨fun p a => if a < r then f p a else f' p (a - r), fun p a => if a < r then g p a else g' p (a - r),
    fun p q hp hi => ?_⟩
  rw [h _ hi, hA p q hp (h1 ▸ hi), hB p q hp (h2 ▸ hi), sum_range_add]
  congr 1
  · exact sum_congr rfl fun a ha => by beta_reduce; rw [if_pos (mem_range.1 ha), if_pos (mem_range.1 ha)]
  · refine sum_congr rfl fun a _ => ?_
    beta_reduce
    rw [if_neg (by omega), if_neg (by omega), Nat.add_sub_cancel_left]

/-- products over multi-indices -/
theorem splits_idx {A : ND K} {k : ℕ} (s : List ℕ) (f g : List ℕ → List ℕ → K)
    (h : ∀ p q, p.length = k → InR A.shape (p ++ q) → A.get (p ++ q) = sumIdx s fun a => f p a * g q a) :
    Splits A k s.prod :=
  ⟨fun p a => f p (unravel s a), fun q a => g q (unravel s a), fun p q hp hi => by
    rw [h p q hp hi, ← sum_unravel]⟩

theorem splits_min {A : ND K} {k r s : ℕ} (h1 : Splits A k r) (h2 : Splits A k s) : Splits A k (min r s) := by
  rcases min_choice r s with h | h <;> rw [h] <;> assumption

theorem splits_dense (A : ND K) {k : ℕ} (hk : k ≤ A.shape.length) :
    Splits A k (min (A.shape.take k).prod (A.shape.drop k).prod) := by
  refine splits_min (splits_idx _ (fun p a => if a = p then 1 else 0) (fun q a => A.get (a ++ q)) ?_)
    (splits_idx _ (fun p a => A.get (p ++ a)) (fun q a => if a = q then 1 else 0) ?_)
  · intro p q hp hi
    rw [← List.take_append_drop k A.shape, inR_append (by rw [List.length_take]; omega)] at hi
    rw [← sumIdx_ite_eq hi.1 fun a => A.get (a ++ q)]
    exact sumIdx_congr fun a _ => by rw [ite_mul, one_mul, zero_mul]
  · intro p q hp hi
    rw [← List.take_append_drop k A.shape, inR_append (by rw [List.length_take]; omega)] at hi
    rw [← sumIdx_ite_eq hi.2 fun a => A.get (p ++ a)]
    exact sumIdx_congr fun a _ => by rw [mul_ite, mul_one, mul_zero]

theorem splits_train {X : TT K} (h : X.Valid) {mu : ℕ} (hmu : mu < X.rank.length) :
    Splits X.toNumpy (mu + 1) (X.rank.getD mu 0) := by
  obtain ⟨x, n, hc, h0, h1⟩ := exists_cores h.2
  have hl := Props.rank_length h
  have hsl : X.shape.length = X.cores.length := by simp [TT.shape]
  have hch := hc.chain (mu + 1) (by omega)
  have hx : x (mu + 1) = X.rank.getD mu 0 := by
    have := (dim_of_shape3 (hc (mu + 1) (by omega))).1
    rw [← this]
    unfold TT.rank
    rw [getD_map_lt _ _ mu (by simpa [TT.rank] using hmu) (ND.zeros []), List.getD_eq_getElem?_getD,
      List.getD_eq_getElem?_getD, List.getElem?_tail]
  rw [h0, hx] at hch
  refine ⟨fun p a => ttVal (X.cores.take (mu + 1)) p 0 a, fun q a => ttVal (X.cores.drop (mu + 1)) q a 0, ?_⟩
  intro p q hp _
  beta_reduce
  rw [TT.toNumpy_get h, ttEntry]
  conv_lhs => rw [← List.take_append_drop (mu + 1) X.cores]
  rw [ttVal_append hch _ p q (by rw [hp, List.length_take]; omega) 0 0 one_pos]

theorem splits_cp {X : CP K} (h : X.Valid) {k : ℕ} (hk : k ≤ X.shape.length) : Splits X.toNumpy k X.rank := by
  refine ⟨fun p a => cpProd (X.cores.take k) p a, fun q a => cpProd (X.cores.drop k) q a, fun p q hp _ => ?_⟩
  have hl : X.shape.length = X.cores.length := by simp [CP.shape]
  rw [CP.toNumpy_get h, cpEntry]
  refine sum_congr rfl fun a _ => ?_
  conv_lhs => rw [← List.take_append_drop k X.cores]
  rw [cpProd_append _ _ _ _ _ (by rw [hp, List.length_take]; omega)]

theorem splits_sparse {X : Sparse K} (h : X.Valid) (hd : X.Distinct) {k : ℕ} (hk : k ≤ X.shape.length) :
    Splits X.toNumpy k X.nnz := by
  refine ⟨fun p a => if (X.entries.getD a ([], 0)).1.take k = p then (X.entries.getD a ([], 0)).2 else 0,
    fun q a => if (X.entries.getD a ([], 0)).1.drop k = q then 1 else 0, fun p q hp _ => ?_⟩
  rw [Sparse.toNumpy_get h hd, sparseEntry]
  have e : ∀ (l : List (List ℕ × K)) (F : List ℕ × K → K), (l.map F).sum = ∑ a ∈ range l.length, F (l.getD a ([], 0)) := by
    intro l F
    induction l with
    | nil => simp
    | cons x l ih => rw [List.map_cons, List.sum_cons, ih, List.length_cons, Finset.sum_range_succ']; simp [add_comm]
  rw [e]
  refine sum_congr rfl fun a ha => ?_
  have hm : X.entries.getD a ([], 0) ∈ X.entries := by
    rw [getD_eq (mem_range.1 ha)]; exact List.getElem_mem _
  have hlen := (h _ hm).length
  beta_reduce
  generalize X.entries.getD a ([], 0) = en at hlen ⊢
  by_cases h1 : en.1.take k = p
  · by_cases h2 : en.1.drop k = q
    · rw [if_pos h1, if_pos h2, if_pos, mul_one]
      rw [← h1, ← h2, List.take_append_drop]
    · rw [if_neg h2, if_neg, mul_zero]
      intro hc
      apply h2
      rw [hc, ← hp, List.drop_left]
  · rw [if_neg h1, if_neg, zero_mul]
    intro hc
    apply h1
    rw [hc, ← hp, List.take_left]

theorem splits_tucker {X : Tucker K} (h : X.Valid) {k : ℕ} (hk : k ≤ X.shape.length) :
    Splits X.toNumpy k (min (X.rank.take k).prod (X.rank.drop k).prod) := by
  have hl : X.shape.length = X.factors.length := by simp [Tucker.shape]
  have hr : X.rank.length = X.factors.length := by simp [Tucker.rank]
  have key : ∀ p q : List ℕ, p.length = k → X.toNumpy.get (p ++ q) = sumIdx (X.rank.take k) fun a =>
      sumIdx (X.rank.drop k) fun b => X.core.get (a ++ b) * (facProd (X.factors.take k) a p *
        facProd (X.factors.drop k) b q) := by
    intro p q hp
    rw [Tucker.toNumpy_get h, tuckerEntry]
    conv_lhs => rw [← List.take_append_drop k X.rank]
    rw [sumIdx_append]
    refine sumIdx_congr fun a ha => sumIdx_congr fun b hb => ?_
    congr 1
    conv_lhs => rw [← List.take_append_drop k X.factors]
    rw [facProd_append _ _ _ _ _ _ (by rw [ha.length, List.length_take, List.length_take]; omega)
      (by rw [hp, List.length_take]; omega)]
  refine splits_min (splits_idx _ (fun p a => facProd (X.factors.take k) a p) (fun q a =>
    sumIdx (X.rank.drop k) fun b => X.core.get (a ++ b) * facProd (X.factors.drop k) b q) ?_)
    (splits_idx _ (fun p b => sumIdx (X.rank.take k) fun a => X.core.get (a ++ b) * facProd (X.factors.take k) a p)
      (fun q b => facProd (X.factors.drop k) b q) ?_)
  · intro p q hp _
    rw [key p q hp]
    refine sumIdx_congr fun a _ => ?_
    rw [mul_sumIdx]
    exact sumIdx_congr fun b _ => by ring
  · intro p q hp _
    rw [key p q hp, sumIdx_comm]
    refine sumIdx_congr fun b _ => ?_
    rw [sumIdx_mul]
    exact sumIdx_congr fun b _ => by ring

theorem splits_leaf {X : Leaf K} (h : X.Valid) (hd : X.Distinct) {mu : ℕ} (hmu : mu < X.shape.length - 1) :
    Splits X.toNumpy (mu + 1) (X.bond mu) := by
  cases X with
  | dense X => exact splits_dense X (by change mu < X.shape.length - 1 at hmu; omega)
  | sparse X => exact splits_sparse h hd (by change mu < X.shape.length - 1 at hmu; omega)
  | tt X =>
    refine splits_train h ?_
    change mu < X.shape.length - 1 at hmu
    have := Props.rank_length h
    have : X.shape.length = X.cores.length := by simp [TT.shape]
    omega
  | cp X => exact splits_cp h (by change mu < X.shape.length - 1 at hmu; omega)
  | tucker X => exact splits_tucker h (by change mu < X.shape.length - 1 at hmu; omega)

/-- The rank of every unfolding is at most the bond. -/
theorem Tensor.rank_le_bond {X : Tensor K} (h : X.Valid) (hd : X.Distinct) {mu : ℕ} (hmu : mu < X.shape.length - 1) :
    (X.toNumpy.unfolding (mu + 1)).rank ≤ X.bond mu := by
  have hsh := Tensor.toNumpy_shape h
  refine Splits.rank_le ?_ (by rw [hsh]; omega)
  cases X with
  | leaf X =>
    have := splits_leaf h hd hmu
    show Splits X.toNumpy _ _
    simpa [Tensor.bond, Tensor.summands] using this
  | sum X =>
    have key : ∀ ts : List (Leaf K), (∀ t ∈ ts, t.Valid ∧ t.shape = X.shape) → (∀ t ∈ ts, t.Distinct) →
        ∀ A : ND K, A.shape = X.shape → (∀ i, InR A.shape i → A.get i = (ts.map fun t => t.toNumpy.get i).sum) →
          Splits A (mu + 1) (ts.map fun t => t.bond mu).sum := by
      intro ts
      induction ts with
      | nil => intro _ _ A _ hA; exact splits_zero fun i hi => by rw [hA i hi]; rfl
      | cons t ts ih =>
        intro h1 h2 A hAs hA
        have ht := h1 t (by simp)
        rw [List.map_cons, List.sum_cons]
        have hts := (Leaf.toNumpy_shape ht.1).trans (ht.2.trans hAs.symm)
        refine splits_add (splits_leaf ht.1 (h2 t (by simp)) (by rw [ht.2]; exact hmu))
          (ih (fun t' h' => h1 t' (by simp [h'])) (fun t' h' => h2 t' (by simp [h']))
            (ND.ofFn A.shape fun i => (ts.map fun t : Leaf K => t.toNumpy.get i).sum) hAs
            (fun i hi => ND.ofFn_get (show InR A.shape i from hi))) hts rfl fun i hi => ?_
        rw [hA i hi, ND.ofFn_get hi, List.map_cons, List.sum_cons]
    exact key X.tensors h hd X.toNumpy hsh fun i _ => TSum.toNumpy_get h i

end TTS
