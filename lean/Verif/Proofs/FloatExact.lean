import Verif.Proofs.FloatDot

/-!
# Which evaluations the floating point model allows

Exact arithmetic is one possible run of every program; so is the left-to-right evaluation with any
rounding function, and the pairwise evaluation of an einsum with three operands.
-/

namespace TTS
open Finset ND

/-- Rounding to nearest (or any other way) with unit roundoff `u`. -/
def Rounding (u : ℝ) (fl : ℝ → ℝ) : Prop := ∀ x, ∃ δ, |δ| ≤ u ∧ fl x = x * (1 + δ)

theorem Rounding.id {u : ℝ} (hu : 0 ≤ u) : Rounding u id := fun x => ⟨0, by simpa using hu, by simp⟩

/-- Left-to-right summation `(...((t_1 + t_2) + t_3) + ...)`, every addition rounded. -/
def flSumL (fl : ℝ → ℝ) : List ℝ → ℝ
  | [] => 0
  | t :: ts => ts.foldl (fun s t => fl (s + t)) t

/-- A list of evaluated terms `(exact value, absolute value, computed value)`. -/
def FlTerms (u : ℝ) (k : ℕ) (ts : List (ℝ × ℝ × ℝ)) : Prop :=
  ∀ t ∈ ts, ∃ l ≤ k, FlVal u l t.1 t.2.1 t.2.2

theorem flVal_foldl {u : ℝ} {fl : ℝ → ℝ} (hfl : Rounding u fl) (k : ℕ) :
    ∀ (ts : List (ℝ × ℝ × ℝ)) {x a v : ℝ} {m : ℕ}, FlTerms u k ts → (∃ l ≤ k + m, FlVal u l x a v) →
      ∃ l ≤ k + m + ts.length, FlVal u l (x + (ts.map fun t => t.1).sum) (a + (ts.map fun t => t.2.1).sum)
        ((ts.map fun t => t.2.2).foldl (fun s t => fl (s + t)) v) := by
  intro ts
  induction ts with
  | nil => rintro x a v m _ h; simpa using h
  | cons t ts ih =>
    rintro x a v m ht ⟨l, hl, h⟩
    obtain ⟨l', hl', h'⟩ := ht t (by simp)
    obtain ⟨δ, hδ, e⟩ := hfl (v + t.2.2)
    have := ih (m := m + 1) (fun s hs => ht s (by simp [hs]))
      ⟨max l l' + 1, by omega, FlVal.add h h' hδ⟩
    obtain ⟨l2, hl2, h2⟩ := this
    refine ⟨l2, by simp only [List.length_cons]; omega, ?_⟩
    simp only [List.map_cons, List.sum_cons, List.foldl_cons, e]
    rw [← add_assoc, ← add_assoc]; exact h2

/-- Left-to-right summation of `n` terms with `k` roundings each is an evaluation with
`k + (n - 1)` roundings. -/
theorem flVal_sum {u : ℝ} {fl : ℝ → ℝ} (hfl : Rounding u fl) (k : ℕ) (ts : List (ℝ × ℝ × ℝ))
    (h : FlTerms u k ts) :
    ∃ l ≤ k + (ts.length - 1), FlVal u l (ts.map fun t => t.1).sum (ts.map fun t => t.2.1).sum
      (flSumL fl (ts.map fun t => t.2.2)) := by
  cases ts with
  | nil => exact ⟨0, by omega, by simpa [flSumL] using FlVal.exact (u := u) 0⟩
  | cons t ts =>
    obtain ⟨l, hl, hv⟩ := h t (by simp)
    have := flVal_foldl hfl k ts (m := 0) (fun s hs => h s (by simp [hs])) ⟨l, by omega, hv⟩
    simpa [flSumL] using this

/-- Left-to-right products of `n` exact numbers need `n - 1` roundings. -/
theorem flVal_prod {u : ℝ} {fl : ℝ → ℝ} (hfl : Rounding u fl) : ∀ (ts : List ℝ) {k : ℕ} {x a v : ℝ},
    FlVal u k x a v → FlVal u (k + ts.length) (x * ts.prod) (a * (ts.map (|·|)).prod)
      (ts.foldl (fun s t => fl (s * t)) v)
  | [], k, x, a, v, h => by simpa using h
  | t :: ts, k, x, a, v, h => by
    obtain ⟨δ, hδ, e⟩ := hfl (v * t)
    have := flVal_prod hfl ts (FlVal.mul h (FlVal.exact t) hδ)
    simp only [List.length_cons, List.prod_cons, List.map_cons, List.foldl_cons, e, ← mul_assoc]
    convert this using 1; omega

/-- The pairwise evaluation of `∑_i ∑_j x_i y_{ij} z_j` (`optimize="optimal"`): first the sums over
`i` (`n` terms), then the sum over `j` (`m` terms).  It needs `n + m ≤ n m + 1` roundings, no more
than the direct summation. -/
theorem flVal_pairwise {u : ℝ} {fl : ℝ → ℝ} (hfl : Rounding u fl) (x z : ℕ → ℝ) (y : ℕ → ℕ → ℝ)
    (n m : ℕ) (hn : 0 < n) (hm : 0 < m) :
    ∃ l ≤ n * m + 3 - 2, FlVal u l (∑ j ∈ range m, ∑ i ∈ range n, x i * y i j * z j)
      (∑ j ∈ range m, ∑ i ∈ range n, |x i| * |y i j| * |z j|)
      (flSumL fl ((List.range m).map fun j =>
        fl (flSumL fl ((List.range n).map fun i => fl (x i * y i j)) * z j))) := by
  have hsum : ∀ (k : ℕ) (f : ℕ → ℝ), ((List.range k).map f).sum = ∑ i ∈ range k, f i := by
    intro k f
    induction k with
    | zero => simp
    | succ k ih => rw [List.range_succ, List.map_append, List.sum_append, ih, Finset.sum_range_succ]; simp
  have inner : ∀ j, ∃ l ≤ n, FlVal u l (∑ i ∈ range n, x i * y i j) (∑ i ∈ range n, |x i| * |y i j|)
      (flSumL fl ((List.range n).map fun i => fl (x i * y i j))) := by
    intro j
    have := flVal_sum hfl 1 ((List.range n).map fun i => (x i * y i j, |x i| * |y i j|, fl (x i * y i j)))
      (by
        intro t ht
        obtain ⟨i, _, rfl⟩ := List.mem_map.1 ht
        obtain ⟨δ, hδ, e⟩ := hfl (x i * y i j)
        refine ⟨1, le_rfl, ?_⟩
        have := FlVal.mul (FlVal.exact (u := u) (x i)) (FlVal.exact (y i j)) hδ
        simpa [e] using this)
    obtain ⟨l, hl, h⟩ := this
    simp only [List.map_map, Function.comp_def, hsum, List.length_map, List.length_range] at h hl
    exact ⟨l, by omega, h⟩
  have := flVal_sum hfl (n + 1) ((List.range m).map fun j =>
      ((∑ i ∈ range n, x i * y i j) * z j, (∑ i ∈ range n, |x i| * |y i j|) * |z j|,
        fl (flSumL fl ((List.range n).map fun i => fl (x i * y i j)) * z j)))
    (by
      intro t ht
      obtain ⟨j, _, rfl⟩ := List.mem_map.1 ht
      obtain ⟨l, hl, h⟩ := inner j
      obtain ⟨δ, hδ, e⟩ := hfl (flSumL fl ((List.range n).map fun i => fl (x i * y i j)) * z j)
      refine ⟨l + 0 + 1, by omega, ?_⟩
      simp only [e]
      exact FlVal.mul h (FlVal.exact (z j)) hδ)
  obtain ⟨l, hl, h⟩ := this
  simp only [List.map_map, Function.comp_def, hsum, List.length_map, List.length_range,
    Finset.sum_mul] at h hl
  refine ⟨l, ?_, h⟩
  obtain ⟨n, rfl⟩ := Nat.exists_eq_add_of_lt hn
  obtain ⟨m, rfl⟩ := Nat.exists_eq_add_of_lt hm
  have : (0 + n + 1) * (0 + m + 1) = n * m + n + m + 1 := by ring
  rw [this]
  have : 0 ≤ n * m := Nat.zero_le _
  omega

/-! ### Exact arithmetic is a possible run -/

theorem flVal_range {u : ℝ} (hu : 0 ≤ u) {m : ℕ} (n : ℕ) {f g : ℕ → ℝ}
    (h : ∀ i < n, ∃ k ≤ m, FlVal u k (f i) (g i) (f i)) :
    ∃ k ≤ m + (n - 1), FlVal u k (∑ i ∈ range n, f i) (∑ i ∈ range n, g i) (∑ i ∈ range n, f i) := by
  induction n with
  | zero => exact ⟨0, by omega, by simpa using FlVal.exact (u := u) 0⟩
  | succ n ih =>
    obtain ⟨k, hk, hv⟩ := ih fun i hi => h i (by omega)
    obtain ⟨l, hl, hw⟩ := h n (by omega)
    simp only [Finset.sum_range_succ]
    cases n with
    | zero => exact ⟨l, by omega, by simpa using hw⟩
    | succ n =>
      refine ⟨max k l + 1, by omega, ?_⟩
      have := FlVal.add hv hw (δ := 0) (by simpa using hu)
      simpa using this

theorem sumIdx_prod_zero {K : Type*} [AddCommMonoid K] : ∀ (s : List ℕ) (f : List ℕ → K), s.prod = 0 →
    sumIdx s f = 0
  | [], f, h => by simp at h
  | n :: s, f, h => by
    rw [sumIdx_cons]
    rcases Nat.mul_eq_zero.1 ((List.prod_cons (a := n) (l := s)).symm.trans h) with h | h
    · subst h; simp
    · exact Finset.sum_eq_zero fun k _ => sumIdx_prod_zero s _ h

theorem flVal_sumIdx {u : ℝ} (hu : 0 ≤ u) {m : ℕ} : ∀ (s : List ℕ) {f g : List ℕ → ℝ},
    (∀ i, InR s i → ∃ k ≤ m, FlVal u k (f i) (g i) (f i)) →
    ∃ k ≤ m + (s.prod - 1), FlVal u k (sumIdx s f) (sumIdx s g) (sumIdx s f)
  | [], f, g, h => by simpa using h [] trivial
  | n :: s, f, g, h => by
    by_cases h0 : (n :: s).prod = 0
    · rw [sumIdx_prod_zero _ f h0, sumIdx_prod_zero _ g h0]
      exact ⟨0, by omega, by simpa using FlVal.exact (u := u) 0⟩
    · simp only [sumIdx_cons]
      obtain ⟨k, hk, hv⟩ := flVal_range hu n (m := m + (s.prod - 1))
        (f := fun k => sumIdx s fun i => f (k :: i)) (g := fun k => sumIdx s fun i => g (k :: i))
        fun k hk => flVal_sumIdx hu s fun i hi => h (k :: i) ⟨hk, hi⟩
      refine ⟨k, hk.trans ?_, hv⟩
      rw [List.prod_cons] at h0 ⊢
      obtain ⟨a, ha⟩ := Nat.exists_eq_succ_of_ne_zero (Nat.mul_ne_zero_iff.1 h0).1
      obtain ⟨b, hb⟩ := Nat.exists_eq_succ_of_ne_zero (Nat.mul_ne_zero_iff.1 h0).2
      rw [ha, hb]
      have : a.succ * b.succ = a * b + a + b + 1 := by simp only [Nat.succ_eq_add_one]; ring
      rw [this]
      have : 0 ≤ a * b := Nat.zero_le _
      omega

theorem flVal_listprod {u : ℝ} (hu : 0 ≤ u) {α : Type*} (f : α → ℝ) : ∀ (ops : List α), ops ≠ [] →
    FlVal u (ops.length - 1) (ops.map f).prod (ops.map fun o => |f o|).prod (ops.map f).prod
  | [], h => absurd rfl h
  | [o], _ => by simpa using FlVal.exact (u := u) (f o)
  | o :: o' :: ops, _ => by
    have := FlVal.mul (FlVal.exact (u := u) (f o)) (flVal_listprod hu f (o' :: ops) (by simp)) (δ := 0)
      (by simpa using hu)
    rw [add_zero, mul_one] at this
    have e : (o :: o' :: ops).length - 1 = 0 + ((o' :: ops).length - 1) + 1 := by
      simp only [List.length_cons]; omega
    rw [e, List.map_cons, List.prod_cons, List.map_cons (f := fun o => |f o|), List.prod_cons]
    exact this

theorem flND_exact {u : ℝ} {n : ℕ} {E M : ND ℝ}
    (h : ∀ i, InR E.shape i → ∃ k ≤ n, FlVal u k (E.get i) (M.get i) (E.get i)) : FlND u n E E M :=
  ⟨rfl, h⟩

theorem FlEinsum.exact {u : ℝ} (hu : 0 ≤ u) (ops : List (List Lb × ND ℝ)) (hne : ops ≠ []) (out : List Lb) :
    FlEinsum u ops out (einsum ops out) := by
  refine flND_exact fun i hi => ?_
  have hd : ((ops.map fun p => (p.1, p.2.abs)).map fun p : List Lb × ND ℝ => (p.1, p.2.shape))
      = ops.map fun p => (p.1, p.2.shape) := by simp [List.map_map, Function.comp_def, abs_shape]
  have hf : (ops.map fun p : List Lb × ND ℝ => (p.1, p.2.abs)).flatMap Prod.fst = ops.flatMap Prod.fst := by
    simp [List.flatMap_map]
  replace hi : InR (out.map (lbDim (ops.map fun p => (p.1, p.2.shape)))) i := hi
  unfold einsum
  simp only [hd, hf]
  rw [ofFn_get hi, ofFn_get hi]
  simp only [List.map_map, Function.comp_def, abs_get]
  by_cases h0 : einsumTerms ops out = 0
  · unfold einsumTerms at h0
    rw [sumIdx_prod_zero _ _ h0, sumIdx_prod_zero _ _ h0]
    exact ⟨0, by omega, by simpa using FlVal.exact (u := u) 0⟩
  · obtain ⟨k, hk, hv⟩ := flVal_sumIdx hu (m := ops.length - 1) _ (f := fun s =>
      (ops.map fun p : List Lb × ND ℝ => p.2.get (p.1.map (lbVal (out ++ lbSummed out (ops.flatMap Prod.fst))
        (i ++ s)))).prod) (g := fun s => (ops.map fun p : List Lb × ND ℝ =>
        |p.2.get (p.1.map (lbVal (out ++ lbSummed out (ops.flatMap Prod.fst)) (i ++ s)))|).prod)
      fun s _ => ⟨_, le_rfl, flVal_listprod hu _ ops hne⟩
    refine ⟨k, hk.trans ?_, hv⟩
    have : 0 < ops.length := List.length_pos_iff.2 hne
    unfold einsumTerms at h0 ⊢
    omega

theorem flVal_mul_exact {u : ℝ} (hu : 0 ≤ u) (x y : ℝ) : ∃ k ≤ 1, FlVal u k (x * y) (|x| * |y|) (x * y) := by
  have := FlVal.mul (FlVal.exact (u := u) x) (FlVal.exact y) (δ := 0) (by simpa using hu)
  exact ⟨1, le_rfl, by simpa using this⟩

theorem FlEinsumE.exact {u : ℝ} (hu : 0 ≤ u) (A : ND ℝ) (ls : List Lb) (B : ND ℝ) (rs out : List Lb) :
    FlEinsumE u A ls B rs out (einsumE A ls B rs out) := by
  refine flND_exact fun i hi => ?_
  replace hi : InR (A.shape.take (A.ndim - ls.length) ++ out.map
    (lbDim [(ls, A.shape.drop (A.ndim - ls.length)), (rs, B.shape)])) i := hi
  unfold einsumE
  have e1 : A.abs.ndim = A.ndim := rfl
  simp only [e1, abs_shape]
  rw [ofFn_get hi, ofFn_get hi]
  simp only [abs_get]
  generalize hs : (lbSummed out (ls ++ rs)).map
      (lbDim [(ls, A.shape.drop (A.ndim - ls.length)), (rs, B.shape)]) = s at *
  by_cases h0 : s.prod = 0
  · rw [sumIdx_prod_zero _ _ h0, sumIdx_prod_zero _ _ h0]
    exact ⟨0, by omega, by simpa using FlVal.exact (u := u) 0⟩
  · obtain ⟨k, hk, hv⟩ := flVal_sumIdx hu (m := 1) s (f := fun s => A.get (i.take (A.ndim - ls.length)
        ++ ls.map (lbVal (out ++ lbSummed out (ls ++ rs)) (i.drop (A.ndim - ls.length) ++ s)))
        * B.get (rs.map (lbVal (out ++ lbSummed out (ls ++ rs)) (i.drop (A.ndim - ls.length) ++ s))))
      (g := fun s => |A.get (i.take (A.ndim - ls.length)
        ++ ls.map (lbVal (out ++ lbSummed out (ls ++ rs)) (i.drop (A.ndim - ls.length) ++ s)))|
        * |B.get (rs.map (lbVal (out ++ lbSummed out (ls ++ rs)) (i.drop (A.ndim - ls.length) ++ s)))|)
      fun s _ => flVal_mul_exact hu _ _
    exact ⟨k, by omega, hv⟩

/-- sums of `n` products need `n` roundings -/
theorem flVal_range_mul {u : ℝ} (hu : 0 ≤ u) (n : ℕ) (f g : ℕ → ℝ) :
    ∃ k ≤ n, FlVal u k (∑ i ∈ range n, f i * g i) (∑ i ∈ range n, |f i| * |g i|)
      (∑ i ∈ range n, f i * g i) := by
  rcases Nat.eq_zero_or_pos n with rfl | hn
  · exact ⟨0, le_rfl, by simpa using FlVal.exact (u := u) 0⟩
  · obtain ⟨k, hk, hv⟩ := flVal_range hu n (m := 1) (f := fun i => f i * g i) (g := fun i => |f i| * |g i|)
      fun i _ => flVal_mul_exact hu _ _
    exact ⟨k, by omega, hv⟩

theorem FlMatmul.exact {u : ℝ} (hu : 0 ≤ u) (A B : ND ℝ) : FlMatmul u A B (A.matmul B) := by
  refine flND_exact fun i hi => ?_
  have e1 : ∀ k, A.abs.dim k = A.dim k := fun _ => rfl
  have e2 : ∀ k, B.abs.dim k = B.dim k := fun _ => rfl
  replace hi : InR [A.dim 0, B.dim 1] i := hi
  unfold matmul
  rw [e1, e1, e2, ofFn_get hi, ofFn_get hi]
  simp only [abs_get]
  exact flVal_range_mul hu _ _ _

theorem FlSumLast.exact {u : ℝ} (hu : 0 ≤ u) (A : ND ℝ) : FlSumLast u A A.sumLast := by
  refine flND_exact fun i hi => ?_
  replace hi : InR A.shape.dropLast i := hi
  unfold sumLast
  rw [abs_shape, ofFn_get hi, ofFn_get hi]
  simp only [abs_get]
  have := flVal_range hu (A.shape.getLastD 0) (m := 0) (f := fun t => A.get (i ++ [t]))
    (g := fun t => |A.get (i ++ [t])|) fun t _ => ⟨0, le_rfl, FlVal.exact _⟩
  simpa using this

theorem FlTotal.exact {u : ℝ} (hu : 0 ≤ u) (A : ND ℝ) : FlTotal u A A.total := by
  have := flVal_sumIdx hu A.shape (m := 0) (f := A.get) (g := A.abs.get)
    fun i _ => ⟨0, le_rfl, by rw [abs_get]; exact FlVal.exact _⟩
  rw [Nat.zero_add] at this
  exact this

theorem FlAdd.exact {u : ℝ} (hu : 0 ≤ u) (A B : ND ℝ) : FlAdd u A B (A.add B) := by
  refine flND_exact fun i hi => ?_
  replace hi : InR A.shape i := hi
  unfold ND.add
  rw [abs_shape, ofFn_get hi, ofFn_get hi, abs_get, abs_get]
  have := FlVal.add (FlVal.exact (u := u) (A.get i)) (FlVal.exact (B.get i)) (δ := 0) (by simpa using hu)
  exact ⟨1, le_rfl, by simpa using this⟩

theorem FlVdot.exact {u : ℝ} (hu : 0 ≤ u) : ∀ x y : List ℝ, x.length = y.length →
    FlVdot u x y (Leaf.vdot x y) := by
  intro x y hl
  have hsum : ∀ (x y : List ℝ), x.length = y.length →
      Leaf.vdot x y = ∑ i ∈ range x.length, x.getD i 0 * y.getD i 0 := by
    unfold Leaf.vdot
    intro x
    induction x with
    | nil => intro y _; simp
    | cons a x ih =>
      intro y hl
      cases y with
      | nil => simp at hl
      | cons b y =>
        rw [List.zipWith_cons_cons, List.sum_cons, ih y (by simpa using hl), List.length_cons,
          Finset.sum_range_succ']
        simp [add_comm]
  have hm : ∀ (l : List ℝ) (i : ℕ), (l.map (|·|)).getD i 0 = |l.getD i 0| := by
    intro l i
    simp only [List.getD_eq_getElem?_getD, List.getElem?_map]
    cases l[i]? <;> simp
  unfold FlVdot
  rw [hsum x y hl, hsum _ _ (by simpa using hl), List.length_map]
  simp only [hm]
  exact flVal_range_mul hu _ _ _

theorem flFold_exact {α β : Type*} {step : β → α → β → Prop} (f : β → α → β)
    (h : ∀ A x, step A x (f A x)) : ∀ (xs : List α) (A : β), flFold step A xs (xs.foldl f A)
  | [], _ => rfl
  | x :: xs, A => ⟨f A x, h A x, flFold_exact f h xs _⟩

theorem gatherStep_exact {u : ℝ} (hu : 0 ≤ u) (idxs : List (List ℕ)) (R : ND ℝ) (Ci : ND ℝ × ℕ) :
    TT.FlGatherStep u idxs R Ci (TT.gatherStep idxs R Ci) := by
  obtain ⟨C, i⟩ := Ci
  refine flND_exact fun nr _ => ?_
  have e1 : ∀ k, C.abs.dim k = C.dim k := fun _ => rfl
  have e2 : ∀ k, R.abs.dim k = R.dim k := fun _ => rfl
  unfold TT.gatherStep
  simp only [e1, e2, abs_get]
  have key : ∀ (js : List ℕ) (N L : ND ℝ), N.shape = L.shape →
      (∀ nr, ∃ k ≤ R.dim 1, FlVal u k (N.get nr) (L.get nr) (N.get nr)) → ∀ nr,
      let A := js.foldl (fun (next : ND ℝ) j => ND.ofFn next.shape fun nr =>
        if (idxs.getD (nr.getD 0 0) []).getD i 0 = j then
          ∑ t ∈ range (R.dim 1), R.get [nr.getD 0 0, t] * C.get [t, j, nr.getD 1 0]
        else next.get nr) N
      let B := js.foldl (fun (next : ND ℝ) j => ND.ofFn next.shape fun nr =>
        if (idxs.getD (nr.getD 0 0) []).getD i 0 = j then
          ∑ t ∈ range (R.dim 1), |R.get [nr.getD 0 0, t]| * |C.get [t, j, nr.getD 1 0]|
        else next.get nr) L
      ∃ k ≤ R.dim 1, FlVal u k (A.get nr) (B.get nr) (A.get nr) := by
    intro js
    induction js with
    | nil => intro N L _ h nr; exact h nr
    | cons j js ih =>
      intro N L hs h nr
      simp only [List.foldl_cons]
      refine ih (ND.ofFn _ _) (ND.ofFn _ _) hs (fun nr => ?_) nr
      simp only [ofFn_get', hs]
      by_cases hi : InR L.shape nr
      · simp only [hi, if_true]
        split
        · exact flVal_range_mul hu _ _ _
        · exact h nr
      · simp only [hi, if_false]; exact ⟨0, by omega, by simpa using FlVal.exact (u := u) 0⟩
  exact key _ _ _ rfl (fun nr => ⟨0, by omega, by simpa using FlVal.exact (u := u) 0⟩) nr

theorem TT.toNumpy_exact {u : ℝ} (hu : 0 ≤ u) (X : TT ℝ) : X.FlToNumpy u X.toNumpy := by
  obtain ⟨cores⟩ := X
  cases cores with
  | nil => exact rfl
  | cons C Cs => exact ⟨_, flFold_exact ND.es_ej_jkl (fun A x => FlEinsumE.exact hu _ _ _ _ _) Cs _, rfl⟩

theorem TT.dot_exact {u : ℝ} (hu : 0 ≤ u) (X Y : TT ℝ) : X.FlDot u Y (X.dot Y) :=
  ⟨_, _, FlEinsum.exact hu _ (by simp) _,
    flFold_exact (fun R (p : ND ℝ × ND ℝ) => ND.es_ij_ika_jkb_ab R p.1 p.2)
      (fun _ _ => FlEinsum.exact hu _ (by simp) _) _ _, FlTotal.exact hu _⟩

theorem TT.gather_exact {u : ℝ} (hu : 0 ≤ u) (X : TT ℝ) (idxs : List (List ℕ)) :
    X.FlGather u idxs (X.gather idxs) := by
  obtain ⟨cores⟩ := X
  cases cores with
  | nil => exact rfl
  | cons C Cs => exact ⟨_, flFold_exact _ (gatherStep_exact hu idxs) _ _, rfl⟩

theorem CP.toNumpy_exact {u : ℝ} (hu : 0 ≤ u) (X : CP ℝ) : X.FlToNumpy u X.toNumpy := by
  obtain ⟨cores⟩ := X
  cases cores with
  | nil => exact rfl
  | cons C Cs =>
    exact ⟨_, flFold_exact ND.es_ej_ij (fun A x => FlEinsumE.exact hu _ _ _ _ _) Cs _, FlSumLast.exact hu _⟩

theorem CP.gather_exact {u : ℝ} (hu : 0 ≤ u) (X : CP ℝ) (idxs : List (List ℕ)) :
    X.FlGather u idxs (X.gather idxs) := by
  unfold CP.FlGather CP.gather
  rw [List.forall₂_map_right_iff, List.forall₂_same]
  intro i _
  refine ⟨fun r => _, fun r => flFold_exact (fun a (p : ND ℝ × ℕ) => a * p.1.get [p.2, r])
    (fun a p => ⟨0, by simpa using hu, by simp⟩) _ _, ?_⟩
  have := flVal_range hu X.rank (m := 0)
    (f := fun r => (X.cores.zip i).foldl (fun res p => res * p.1.get [p.2, r]) 1)
    (g := fun r => |(X.cores.zip i).foldl (fun res p => res * p.1.get [p.2, r]) 1|)
    fun t _ => ⟨0, le_rfl, FlVal.exact _⟩
  simpa using this

theorem Tucker.toNumpy_exact {u : ℝ} (hu : 0 ≤ u) (X : Tucker ℝ) : X.FlToNumpy u X.toNumpy :=
  ⟨_, flFold_exact (fun A (Ui : ND ℝ × ℕ) => ND.es_ijk_jl_ilk (A.reshape [(X.shape.take Ui.2).prod,
      X.rank.getD Ui.2 0, (X.rank.drop (Ui.2 + 1)).prod]) Ui.1)
    (fun _ _ => FlEinsum.exact hu _ (by simp) _) _ _, rfl⟩

theorem Leaf.toNumpy_exact {u : ℝ} (hu : 0 ≤ u) (X : Leaf ℝ) : X.FlToNumpy u X.toNumpy := by
  cases X with
  | dense X => exact rfl
  | sparse X => exact rfl
  | tt X => exact X.toNumpy_exact hu
  | cp X => exact X.toNumpy_exact hu
  | tucker X => exact X.toNumpy_exact hu

theorem Leaf.gather_exact {u : ℝ} (hu : 0 ≤ u) {X : Leaf ℝ} {g : List (List ℕ) → List ℝ}
    (hg : X.gather? = some g) : ∃ G, X.FlGather u = some G ∧ ∀ idxs, G idxs (g idxs) := by
  cases X with
  | dense X => cases hg
  | tucker X => cases hg
  | sparse X => cases hg; exact ⟨_, rfl, fun _ => rfl⟩
  | tt X => cases hg; exact ⟨_, rfl, X.gather_exact hu⟩
  | cp X => cases hg; exact ⟨_, rfl, X.gather_exact hu⟩

theorem Leaf.gather_none {u : ℝ} {X : Leaf ℝ} (hg : X.gather? = none) : X.FlGather u = none := by
  cases X with
  | dense X => rfl
  | tucker X => rfl
  | sparse X => cases hg
  | tt X => cases hg
  | cp X => cases hg

theorem Leaf.denseDot_exact {u : ℝ} (hu : 0 ≤ u) (X Y : Leaf ℝ) : X.FlDenseDot u Y (X.denseDot Y) := by
  refine ⟨_, _, X.toNumpy_exact hu, Y.toNumpy_exact hu, ?_⟩
  have e : X.denseDot Y = Leaf.vdot
      ((List.range X.toNumpy.shape.prod).map fun n => (X.toNumpy.reshape [X.toNumpy.shape.prod]).get [n])
      ((List.range X.toNumpy.shape.prod).map fun n => (Y.toNumpy.reshape [Y.toNumpy.shape.prod]).get [n]) := by
    rw [vdot_denseDot]; rfl
  rw [e]
  exact FlVdot.exact hu _ _ (by simp)

theorem Leaf.gather_length {X : Leaf ℝ} (h : X.Valid) {g : List (List ℕ) → List ℝ} (hg : X.gather? = some g)
    (idxs : List (List ℕ)) (hin : ∀ i ∈ idxs, InR X.shape i) : (g idxs).length = idxs.length := by
  rw [Leaf.gather_eq h hg idxs hin, List.length_map]

theorem sparse_dot_exact {u : ℝ} (hu : 0 ≤ u) {S : Sparse ℝ} {Y : Leaf ℝ} (hS : S.Valid) (hY : Y.Valid)
    (hs : S.shape = Y.shape) {g : List (List ℕ) → List ℝ} (hg : Y.gather? = some g) :
    FlVdot u (g (S.entries.map Prod.fst)) (S.entries.map Prod.snd)
      (Leaf.vdot (g (S.entries.map Prod.fst)) (S.entries.map Prod.snd)) := by
  refine FlVdot.exact hu _ _ ?_
  rw [Leaf.gather_length hY hg, List.length_map, List.length_map]
  intro i hi
  obtain ⟨e, he, rfl⟩ := List.mem_map.1 hi
  rw [← hs]; exact hS e he

theorem Leaf.dotRev_exact {u : ℝ} (hu : 0 ≤ u) {X Y : Leaf ℝ} (hX : X.Valid) (hY : Y.Valid)
    (hs : X.shape = Y.shape) : X.FlDotRev u Y (X.dotRev Y) := by
  cases X with
  | dense A => exact Leaf.denseDot_exact hu _ _
  | cp A => exact Leaf.denseDot_exact hu _ _
  | tucker A => exact Leaf.denseDot_exact hu _ _
  | tt A =>
    cases Y with
    | tt B => exact TT.dot_exact hu A B
    | dense B => exact Leaf.denseDot_exact hu _ _
    | sparse B => exact Leaf.denseDot_exact hu _ _
    | cp B => exact Leaf.denseDot_exact hu _ _
    | tucker B => exact Leaf.denseDot_exact hu _ _
  | sparse S =>
    unfold Leaf.FlDotRev Leaf.dotRev
    cases hg : Y.gather? with
    | none =>
      simp only [Leaf.gather_none hg]
      exact Leaf.denseDot_exact hu _ _
    | some g =>
      obtain ⟨G, hG, h⟩ := Leaf.gather_exact hu hg
      simp only [hG]
      exact ⟨_, h _, sparse_dot_exact hu hX hY hs hg⟩

theorem Leaf.dot_exact {u : ℝ} (hu : 0 ≤ u) {X Y : Leaf ℝ} (hX : X.Valid) (hY : Y.Valid)
    (hs : X.shape = Y.shape) : X.FlDot u Y (X.dot Y) := by
  cases X with
  | dense A => exact Leaf.dotRev_exact hu hY hX hs.symm
  | cp A => exact Leaf.dotRev_exact hu hY hX hs.symm
  | tucker A => exact Leaf.dotRev_exact hu hY hX hs.symm
  | tt A =>
    cases Y with
    | tt B => exact TT.dot_exact hu A B
    | dense B => exact Leaf.dotRev_exact hu hY hX hs.symm
    | sparse B => exact Leaf.dotRev_exact hu hY hX hs.symm
    | cp B => exact Leaf.dotRev_exact hu hY hX hs.symm
    | tucker B => exact Leaf.dotRev_exact hu hY hX hs.symm
  | sparse S =>
    unfold Leaf.FlDot Leaf.dot
    cases hg : Y.gather? with
    | none =>
      simp only [Leaf.gather_none hg]
      exact Leaf.dotRev_exact hu hY hX hs.symm
    | some g =>
      obtain ⟨G, hG, h⟩ := Leaf.gather_exact hu hg
      simp only [hG]
      exact ⟨_, h _, sparse_dot_exact hu hX hY hs hg⟩

theorem TSum.toNumpy_exact {u : ℝ} (hu : 0 ≤ u) (X : TSum ℝ) : X.FlToNumpy u X.toNumpy := by
  unfold TSum.FlToNumpy TSum.toNumpy
  exact flFold_exact (fun (s : ND ℝ) (t : Leaf ℝ) => s.add t.toNumpy)
    (fun _ t => ⟨_, t.toNumpy_exact hu, FlAdd.exact hu _ _⟩) _ _

theorem Tensor.toNumpy_exact {u : ℝ} (hu : 0 ≤ u) (X : Tensor ℝ) : X.FlToNumpy u X.toNumpy := by
  cases X with
  | leaf X => exact X.toNumpy_exact hu
  | sum X => exact X.toNumpy_exact hu

theorem flSum_exact {α : Type*} {u : ℝ} (hu : 0 ≤ u) {f : α → ℝ → Prop} {g : α → ℝ} (xs : List α)
    (h : ∀ x ∈ xs, f x (g x)) : flSum u f xs ((xs.map g).foldl (· + ·) 0) := by
  unfold flSum
  generalize (0 : ℝ) = s
  induction xs generalizing s with
  | nil => exact rfl
  | cons x xs ih =>
    exact ⟨s + g x, ⟨g x, 0, h x (by simp), by simpa using hu, by simp⟩, ih (fun y hy => h y (by simp [hy])) _⟩

theorem Tensor.dot_exact {u : ℝ} (hu : 0 ≤ u) {X Y : Tensor ℝ} (hX : X.Valid) (hY : Y.Valid)
    (hs : X.shape = Y.shape) : X.FlDot u Y (X.dot Y) := by
  cases X with
  | leaf X =>
    cases Y with
    | leaf Y => exact Leaf.dot_exact hu hX hY hs
    | sum Y => exact flSum_exact hu _ fun t ht => Leaf.dot_exact hu (hY t ht).1 hX ((hY t ht).2.trans hs.symm)
  | sum X =>
    cases Y with
    | leaf Y => exact flSum_exact hu _ fun t ht => Leaf.dot_exact hu (hX t ht).1 hY ((hX t ht).2.trans hs)
    | sum Y =>
      exact flSum_exact hu _ fun t ht => flSum_exact hu _ fun s hs' =>
        Leaf.dot_exact hu (hY s hs').1 (hX t ht).1 (((hY s hs').2.trans hs.symm).trans (hX t ht).2.symm)

end TTS
