import Verif.Model.Utils
import Verif.Proofs.OrthErr

/-!
# C75: the test tensors `hilbert_tensor` and `sqrt_tensor`
-/

namespace TTS.Props

open TTS Finset

theorem swap01_length {α : Type*} (l : List α) : (swap01 l).length = l.length := by
  rcases l with _ | ⟨a, _ | ⟨b, l⟩⟩ <;> rfl

theorem swap01_swap01 {α : Type*} (l : List α) : swap01 (swap01 l) = l := by
  rcases l with _ | ⟨a, _ | ⟨b, l⟩⟩ <;> rfl

theorem swap01_perm {α : Type*} (l : List α) : (swap01 l).Perm l := by
  rcases l with _ | ⟨a, _ | ⟨b, l⟩⟩
  · exact .refl _
  · exact .refl _
  · exact .swap a b l

theorem swap01_replicate {α : Type*} (n : ℕ) (a : α) : swap01 (List.replicate n a) = List.replicate n a := by
  rcases n with _ | _ | n <;> rfl

theorem swap01_inR {s i : List ℕ} : InR (swap01 s) i ↔ InR s (swap01 i) := by
  constructor <;> intro h
  · have hl := h.length
    rw [swap01_length] at hl
    rcases s with _ | ⟨a, _ | ⟨b, s⟩⟩ <;> rcases i with _ | ⟨x, _ | ⟨y, i⟩⟩ <;> simp_all [swap01]
  · have hl := h.length
    rw [swap01_length] at hl
    rcases s with _ | ⟨a, _ | ⟨b, s⟩⟩ <;> rcases i with _ | ⟨x, _ | ⟨y, i⟩⟩ <;> simp_all [swap01]

/-- the sum over the axes of the values on a grid -/
theorem gridSum_get {vals : List (List ℝ)} {i : List ℕ} (h : InR (swap01 (vals.map List.length)) i) :
    (gridSum (swap01 (vals.map List.length)) (meshgrid vals)).get i
      = ∑ k ∈ range vals.length, (vals.getD k []).getD ((swap01 i).getD k 0) 0 := by
  refine (ND.ofFn_get h).trans ?_
  have e : ∀ (f : ℕ → ℝ) n, ((List.range n).map f).sum = ∑ k ∈ range n, f k := fun f n => (Multiset.sum_coe _).symm
  rw [meshgrid, List.map_map, e]
  exact sum_congr rfl fun k _ => ND.ofFn_get h

theorem inR_replicate {n : ℕ} : ∀ {d : ℕ} {i : List ℕ}, InR (List.replicate d n) i ↔ i.length = d ∧ ∀ x ∈ i, x < n
  | 0, [] => by simp
  | 0, x :: i => by simp
  | d + 1, [] => by simp [List.replicate_succ]
  | d + 1, x :: i => by
    rw [List.replicate_succ, inR_cons_cons, inR_replicate]
    simp only [List.length_cons, List.mem_cons, forall_eq_or_imp, Nat.add_right_cancel_iff]
    tauto

/-- **C75, `hilbert_tensor(d, n)`** has `d` modes of size `n` and the entries `1 / (i_1 + … + i_d + 1)`; so it does not
change under permutations of its modes. -/
theorem C75_hilbert (d n : ℕ) :
    (hilbertTensor d n).shape = List.replicate d n ∧
      (∀ i, InR (List.replicate d n) i → (hilbertTensor d n).get i = 1 / ((i.sum : ℝ) + 1)) ∧
      ∀ i j : List ℕ, i.Perm j → (hilbertTensor d n).get i = (hilbertTensor d n).get j := by
  have hs : swap01 ((List.replicate d ((List.range n).map fun k : ℕ => (k : ℝ))).map List.length) = List.replicate d n := by
    rw [List.map_replicate, swap01_replicate, List.length_map, List.length_range]
  have hsh : (hilbertTensor d n).shape = List.replicate d n := hs
  have hget : ∀ i, InR (List.replicate d n) i → (hilbertTensor d n).get i = 1 / ((i.sum : ℝ) + 1) := by
    intro i hi
    have hi' := hi
    rw [← hs] at hi'
    refine (ND.ofFn_get (show InR (gridSum _ _).shape i from hi')).trans ?_
    rw [gridSum_get hi', List.length_replicate]
    congr 2
    have hl : i.length = d := by rw [hi.length, List.length_replicate]
    have hj : InR (List.replicate d n) (swap01 i) := by rw [← swap01_inR, swap01_replicate]; exact hi
    have : ((i.sum : ℕ) : ℝ) = ∑ k ∈ range d, ((swap01 i).getD k 0 : ℝ) := by
      rw [← (swap01_perm i).sum_eq, ← Nat.cast_sum]
      congr 1
      have hl' : (swap01 i).length = d := by rw [swap01_length, hl]
      generalize swap01 i = j at hl'
      subst hl'
      rw [sum_range]
      conv_lhs => rw [← List.ofFn_getElem (xs := j), List.sum_ofFn]
      exact sum_congr rfl fun k _ => by simp
    rw [this]
    refine sum_congr rfl fun k hk => ?_
    have hk := mem_range.1 hk
    have hlt : (swap01 i).getD k 0 < n := by
      obtain ⟨h1, h2⟩ := inR_replicate.1 hj
      rw [List.getD_eq_getElem _ _ (by omega)]
      exact h2 _ (List.getElem_mem _)
    have e : (List.replicate d ((List.range n).map fun k : ℕ => (k : ℝ))).getD k [] = (List.range n).map fun k : ℕ => (k : ℝ) := by
      rw [List.getD_eq_getElem _ _ (by simpa using hk), List.getElem_replicate]
    rw [e, List.getD_eq_getElem _ _ (by simpa using hlt)]
    simp
  refine ⟨hsh, hget, fun i j hij => ?_⟩
  have hin : ∀ i j : List ℕ, i.Perm j → InR (List.replicate d n) i → InR (List.replicate d n) j := by
    intro i j hij h
    rw [inR_replicate] at h ⊢
    exact ⟨hij.length_eq ▸ h.1, fun x hx => h.2 x (hij.mem_iff.2 hx)⟩
  by_cases hi : InR (List.replicate d n) i
  · rw [hget i hi, hget j (hin i j hij hi), hij.sum_eq]
  · rw [(hilbertTensor d n).supp i (by rw [hsh]; exact hi),
      (hilbertTensor d n).supp j (by rw [hsh]; exact fun h => hi (hin j i hij.symm h))]

/-- number `k` of `s` evenly spaced numbers from `a` to `b` -/
noncomputable def gridPoint (a b : ℝ) (s k : ℕ) : ℝ := a + (k : ℝ) * ((b - a) / ((s : ℝ) - 1))

/-- the sum of the grid points with the index `i` -/
noncomputable def gridPoints (a b : ℝ) (shape i : List ℕ) : ℝ :=
  ∑ k ∈ range shape.length, gridPoint a b (shape.getD k 0) (i.getD k 0)

theorem gridPoint_ends (a b : ℝ) (s : ℕ) (h : 2 ≤ s) : gridPoint a b s 0 = a ∧ gridPoint a b s (s - 1) = b := by
  have : (s : ℝ) - 1 ≠ 0 := by
    have : (2 : ℝ) ≤ s := by exact_mod_cast h
    intro h; linarith
  refine ⟨by simp [gridPoint], ?_⟩
  rw [gridPoint, Nat.cast_sub (by omega), Nat.cast_one, mul_div_cancel₀ _ this]
  ring

theorem sqrtGrid_get {shape i : List ℕ} (a b : ℝ) (h : InR shape i) :
    (gridSum (swap01 ((shape.map (linspace a b)).map List.length)) (meshgrid (shape.map (linspace a b)))).get (swap01 i)
      = gridPoints a b shape i := by
  have hl : (shape.map (linspace a b)).map List.length = shape := by
    rw [List.map_map]
    exact (List.map_congr_left fun s _ => by simp [linspace]).trans (List.map_id _)
  rw [gridSum_get (by rw [hl, swap01_inR, swap01_swap01]; exact h), swap01_swap01, List.length_map]
  refine sum_congr rfl fun k hk => ?_
  have hk := mem_range.1 hk
  have hik : i.getD k 0 < shape.getD k 0 := by
    rw [List.getD_eq_getElem _ _ (by rw [h.length]; exact hk), List.getD_eq_getElem _ _ hk]
    exact h.getElem hk
  have e : (shape.map (linspace a b)).getD k [] = linspace a b (shape.getD k 0) := by
    rw [List.getD_eq_getElem _ _ (by simpa using hk), List.getElem_map, List.getD_eq_getElem _ _ hk]
  rw [e, linspace, List.getD_eq_getElem _ _ (by simpa using hik), List.getElem_map, List.getElem_range]
  rfl

theorem sqrt_shape (a b : ℝ) (shape : List ℕ) :
    swap01 ((shape.map (linspace a b)).map List.length) = swap01 shape := by
  rw [List.map_map]
  exact congrArg _ ((List.map_congr_left fun s _ => by simp [linspace]).trans (List.map_id _))

theorem sumIdx_eq_zero_iff_nonneg : ∀ {s : List ℕ} {f : List ℕ → ℝ}, (∀ i, 0 ≤ f i) → sumIdx s f = 0 →
    ∀ i, InR s i → f i = 0
  | [], f, _, h, [], _ => h
  | n :: s, f, h0, h, x :: i, hi => by
    have h : ∑ k ∈ range n, sumIdx s (fun j => f (k :: j)) = 0 := h
    rw [sum_eq_zero_iff_of_nonneg fun k _ => sumIdx_nonneg fun j => h0 _] at h
    exact sumIdx_eq_zero_iff_nonneg (fun j => h0 _) (h x (mem_range.2 hi.1)) i hi.2

theorem sumIdx_swap01 (s : List ℕ) (f : List ℕ → ℝ) : sumIdx (swap01 s) f = sumIdx s fun i => f (swap01 i) := by
  rcases s with _ | ⟨a, _ | ⟨b, s⟩⟩
  · rfl
  · simp [swap01, sumIdx]
  · simp only [swap01, sumIdx]
    exact sum_comm

/-- **C75, `sqrt_tensor(shape, a, b)`.** The result has norm one, and up to one common positive factor its entries are the
square roots of the absolute values of the sums of the grid points.  The first two modes are exchanged, both in the
shape and in the entries. -/
theorem C75_sqrt (shape : List ℕ) (a b : ℝ) (X : ND ℝ) (h : sqrtTensor shape a b = .ok X) :
    X.shape = swap01 shape ∧ (X.size ≠ 0 → sumIdx X.shape (fun i => X.get i ^ 2) = 1) ∧
      ∃ c, 0 ≤ c ∧ (X.size ≠ 0 → 0 < c) ∧ ∀ i, InR shape i → X.get (swap01 i) = c * √ |gridPoints a b shape i| := by
  unfold sqrtTensor at h
  split_ifs at h with h0
  simp only [] at h
  split_ifs at h with h1
  have hX := (Except.ok.inj h).symm
  set S := gridSum (swap01 ((shape.map (linspace a b)).map List.length)) (meshgrid (shape.map (linspace a b))) with hS
  set Z := ND.ofFn S.shape fun i => √ |S.get i| with hZ
  have hSs : S.shape = swap01 shape := sqrt_shape a b shape
  have hZs : Z.shape = swap01 shape := hSs
  have hXs : X.shape = swap01 shape := by rw [hX]; exact hZs
  have hf : 0 ≤ Z.frob := Real.sqrt_nonneg _
  have hsz : X.size = Z.size := by rw [ND.size, ND.size, hXs, hZs]
  have hpos : X.size ≠ 0 → 0 < Z.frob := by
    intro hn
    refine lt_of_le_of_ne hf fun e => h1 ⟨e.symm, by rwa [← hsz]⟩
  have hg : ∀ i, InR (swap01 shape) i → X.get i = Z.get i / Z.frob := by
    intro i hi
    rw [hX]
    exact ND.ofFn_get (by rw [hZs]; exact hi)
  refine ⟨hXs, fun hn => ?_, (Z.frob)⁻¹, inv_nonneg.2 hf, fun hn => inv_pos.2 (hpos hn), fun i hi => ?_⟩
  · have hp := hpos hn
    rw [hXs, sumIdx_congr fun i hi => show X.get i ^ 2 = Z.get i ^ 2 * (Z.frob ^ 2)⁻¹ by rw [hg i hi, div_pow]; rfl,
      ← sumIdx_mul]
    have e : Z.frob ^ 2 = sumIdx (swap01 shape) fun i => Z.get i ^ 2 := by
      rw [ND.frob, Real.sq_sqrt (sumIdx_nonneg fun i => sq_nonneg _), hZs]
    rw [← e]
    exact mul_inv_cancel₀ (pow_ne_zero 2 hp.ne')
  · have hi' : InR (swap01 shape) (swap01 i) := by rw [swap01_inR, swap01_swap01]; exact hi
    rw [hg _ hi', ND.ofFn_get (by rw [hSs]; exact hi'), hS, sqrtGrid_get a b hi, div_eq_inv_mul]

/-- **C75, when `sqrt_tensor` returns**: for at least one mode, unless all the sums vanish. -/
theorem C75_sqrt_returns (shape : List ℕ) (a b : ℝ) :
    (∃ X, sqrtTensor shape a b = .ok X) ↔
      shape ≠ [] ∧ (shape.prod = 0 ∨ ∃ i, InR shape i ∧ gridPoints a b shape i ≠ 0) := by
  set S := gridSum (swap01 ((shape.map (linspace a b)).map List.length)) (meshgrid (shape.map (linspace a b))) with hS
  set Z := ND.ofFn S.shape fun i => √ |S.get i| with hZ
  have hSs : S.shape = swap01 shape := sqrt_shape a b shape
  have hsize : Z.size = shape.prod := by
    show S.shape.prod = _
    rw [hSs]
    exact (swap01_perm shape).prod_eq
  have hfrob : Z.frob = 0 ↔ ∀ i, InR shape i → gridPoints a b shape i = 0 := by
    rw [ND.frob, Real.sqrt_eq_zero (sumIdx_nonneg fun i => sq_nonneg _)]
    have e : sumIdx Z.shape (fun i => Z.get i ^ 2) = sumIdx shape fun i => |gridPoints a b shape i| := by
      show sumIdx S.shape _ = _
      rw [hSs, sumIdx_swap01]
      refine sumIdx_congr fun i hi => ?_
      have hi' : InR (swap01 shape) (swap01 i) := by rw [swap01_inR, swap01_swap01]; exact hi
      rw [ND.ofFn_get (by rw [hSs]; exact hi'), hS, sqrtGrid_get a b hi, Real.sq_sqrt (abs_nonneg _)]
    rw [e]
    constructor
    · intro h i hi
      have := sumIdx_eq_zero_iff_nonneg (fun i => abs_nonneg _) h i hi
      exact abs_eq_zero.1 this
    · intro h
      exact sumIdx_eq_zero fun i hi => by rw [h i hi, abs_zero]
  have hdef : sqrtTensor shape a b = if shape = [] then .error .valueError
      else if Z.frob = 0 ∧ Z.size ≠ 0 then .error .nonFinite
      else .ok (ND.ofFn Z.shape fun i => Z.get i / Z.frob) := rfl
  rw [hdef]
  by_cases h0 : shape = []
  · rw [if_pos h0]
    simp [h0]
  rw [if_neg h0]
  by_cases h1 : Z.frob = 0 ∧ Z.size ≠ 0
  · rw [if_pos h1]
    constructor
    · rintro ⟨X, h⟩; cases h
    · rintro ⟨-, h | ⟨i, hi, hne⟩⟩
      · exact absurd (hsize.trans h) h1.2
      · exact absurd (hfrob.1 h1.1 i hi) hne
  · rw [if_neg h1]
    refine ⟨fun _ => ⟨h0, ?_⟩, fun _ => ⟨_, rfl⟩⟩
    rw [← hsize]
    by_contra hc
    push Not at hc
    exact h1 ⟨hfrob.2 hc.2, hc.1⟩

/-- **C75, counterexample.** The docstring promises a tensor of the shape asked for; for `(2, 3)` the shape is `(3, 2)`. -/
theorem C75_sqrt_swapped : ∃ X, sqrtTensor [2, 3] 1 2 = .ok X ∧ X.shape = [3, 2] := by
  obtain ⟨X, h⟩ := (C75_sqrt_returns [2, 3] 1 2).2 ⟨by simp, .inr ⟨[0, 0], by simp, by
    simp [gridPoints, gridPoint, sum_range_succ]⟩⟩
  exact ⟨X, h, (C75_sqrt [2, 3] 1 2 X h).1⟩

example : (hilbertTensor 3 4).get [1, 2, 3] = 1 / 7 := by
  rw [(C75_hilbert 3 4).2.1 _ (by simp [List.replicate])]
  norm_num

end TTS.Props
