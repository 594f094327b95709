import Verif.Proofs.TensorAdd
import Verif.Proofs.TensorDot
import Verif.Proofs.Matricize
import Mathlib.Tactic.NormNum

/-!
# The tensor formats: C05-C09, C11, C14-C17, C21, C22, C60 (tensor trains)
-/

namespace TTS
namespace Props

open Finset

variable {K : Type*}

/-! ### Concrete tensors used to show that hypotheses can be met -/

section samples

/-- a `2 × 3` tensor train of rank 2 -/
def sTT : TT ℤ :=
  ⟨[ND.ofFn [1, 2, 2] fun i => i.getD 1 0 + 2 * i.getD 2 0 + 1,
    ND.ofFn [2, 3, 1] fun i => i.getD 0 0 * 3 + i.getD 1 0]⟩
/-- a `2 × 3` CP tensor of rank 2 -/
def sCP : CP ℤ :=
  ⟨[ND.ofFn [2, 2] fun i => i.getD 0 0 + i.getD 1 0, ND.ofFn [3, 2] fun i => i.getD 0 0 - i.getD 1 0]⟩
/-- a `2 × 3` Tucker tensor -/
def sTucker : Tucker ℤ :=
  ⟨[ND.ofFn [1, 2] fun i => i.getD 1 0 + 1, ND.ofFn [2, 3] fun i => i.getD 0 0 + i.getD 1 0],
    ND.ofFn [1, 2] fun i => 5 * i.getD 1 0 + 1⟩
/-- a `2 × 3` sparse tensor -/
def sSparse : Sparse ℤ := ⟨[2, 3], [([0, 1], 4), ([1, 2], -7), ([1, 0], 2)]⟩
/-- a `2 × 3` dense tensor -/
def sDense : ND ℤ := ND.ofFn [2, 3] fun i => i.getD 0 0 * 10 + i.getD 1 0
/-- a lazy sum of all five -/
def sSum : TSum ℤ := ⟨[2, 3], [.tt sTT, .cp sCP, .tucker sTucker, .sparse sSparse, .dense sDense]⟩

theorem sTT_valid : sTT.Valid := ⟨by simp [sTT], 2, 2, rfl, 3, 1, rfl, rfl⟩
theorem sCP_valid : sCP.Valid := by
  refine ⟨by simp [sCP], ?_⟩
  intro C hC
  simp only [sCP, List.mem_cons, List.not_mem_nil, or_false] at hC
  rcases hC with rfl | rfl
  · exact ⟨2, rfl⟩
  · exact ⟨3, rfl⟩
theorem sTucker_valid : sTucker.Valid := by
  refine ⟨?_, rfl⟩
  intro C hC
  simp only [sTucker, List.mem_cons, List.not_mem_nil, or_false] at hC
  rcases hC with rfl | rfl
  · exact ⟨1, 2, rfl⟩
  · exact ⟨2, 3, rfl⟩
theorem sSparse_valid : sSparse.Valid := by
  intro e he
  simp only [sSparse, List.mem_cons, List.not_mem_nil, or_false] at he
  rcases he with rfl | rfl | rfl <;> simp [sSparse]
theorem sSparse_distinct : sSparse.Distinct := by simp [Sparse.Distinct, sSparse]
theorem sSum_valid : sSum.Valid := by
  intro t ht
  simp only [sSum, List.mem_cons, List.not_mem_nil, or_false] at ht
  rcases ht with rfl | rfl | rfl | rfl | rfl
  · exact ⟨sTT_valid, rfl⟩
  · exact ⟨sCP_valid, rfl⟩
  · exact ⟨sTucker_valid, rfl⟩
  · exact ⟨sSparse_valid, rfl⟩
  · exact ⟨trivial, rfl⟩
theorem sSum_distinct : (Tensor.sum sSum).Distinct := by
  intro t ht
  simp only [sSum, List.mem_cons, List.not_mem_nil, or_false] at ht
  rcases ht with rfl | rfl | rfl | rfl | rfl <;> first | exact sSparse_distinct | trivial

end samples

/-! ### C05 -/

section
variable [CommSemiring K]

theorem mk?_map_ok {ts : List (Leaf K)} {f : Leaf K → Leaf K} {sh : List ℕ} (hne : ts ≠ [])
    (hsh : ∀ t ∈ ts, (f t).shape = sh) : TSum.mk? (ts.map f) = .ok ⟨sh, ts.map f⟩ := by
  match ts, hne with
  | t :: ts, _ =>
    show Except.ok _ = _
    rw [hsh t (by simp)]

/-- **C05.** For a well-formed tensor of any format (a lazy sum having at least one summand),
`X.T` exists, is well-formed, has the reversed shape, has at the reversed index the entry of `X`,
and transposing again gives back `X`. -/
theorem C05 (X : Tensor K) (hX : X.Valid) (hne : X.NonEmpty) :
    ∃ Y, X.T = .ok Y ∧ Y.Valid ∧ Y.shape = X.shape.reverse ∧
      (∀ i, Y.toNumpy.get i.reverse = X.toNumpy.get i) ∧ Y.T = .ok X := by
  cases X with
  | leaf X =>
    exact ⟨.leaf X.T, rfl, Leaf.T_valid hX, Leaf.T_shape hX, Leaf.T_get hX,
      congrArg (fun Z => Except.ok (Tensor.leaf Z)) (Leaf.T_T hX)⟩
  | sum X =>
    have e1 := mk?_map_ok (f := Leaf.T) (sh := X.shape.reverse) hne
      (fun t ht => by rw [Leaf.T_shape (hX t ht).1, (hX t ht).2])
    have hv : (⟨X.shape.reverse, X.tensors.map Leaf.T⟩ : TSum K).Valid := by
      intro t ht
      obtain ⟨u, hu, rfl⟩ := List.mem_map.1 ht
      exact ⟨Leaf.T_valid (hX u hu).1, by rw [Leaf.T_shape (hX u hu).1, (hX u hu).2]⟩
    refine ⟨.sum ⟨X.shape.reverse, X.tensors.map Leaf.T⟩, ?_, hv, rfl, ?_, ?_⟩
    · show (TSum.mk? _).map _ = _
      rw [e1]; rfl
    · intro i
      show (TSum.toNumpy _).get _ = X.toNumpy.get i
      rw [TSum.toNumpy_get hv, TSum.toNumpy_get hX, List.map_map]
      exact congrArg _ (List.map_congr_left fun t ht => Leaf.T_get (hX t ht).1 i)
    · show (TSum.mk? ((X.tensors.map Leaf.T).map Leaf.T)).map _ = _
      have e3 : (X.tensors.map Leaf.T).map Leaf.T = X.tensors := by
        rw [List.map_map]
        conv_rhs => rw [← List.map_id X.tensors]
        exact List.map_congr_left fun t ht => Leaf.T_T (hX t ht).1
      have e2 := mk?_map_ok (ts := X.tensors) (f := fun t => t) (sh := X.shape) hne
        (fun t ht => (hX t ht).2)
      rw [List.map_id'] at e2
      rw [e3, e2]; rfl

/-- A lazy sum whose list has been emptied cannot be transposed. -/
theorem C05_empty (sh : List ℕ) : (Tensor.sum (⟨sh, []⟩ : TSum K)).T = .error .indexError := rfl

example : (Tensor.sum sSum).Valid ∧ (Tensor.sum sSum).NonEmpty := ⟨sSum_valid, by simp [Tensor.NonEmpty, sSum]⟩

/-! ### C06 -/

/-- **C06, tensor trains**: the product of the core slices at every index of the shape. -/
theorem C06_tt (X : TT K) (h : X.Valid) : X.toNumpy = ND.ofFn X.shape (ttEntry X) :=
  ND.ext' (TT.toNumpy_shape h) fun i hi => by
    rw [TT.toNumpy_shape h] at hi
    rw [ND.ofFn_get hi, TT.toNumpy_get h]

/-- **C06, CP tensors**: the sum over components of products of factor entries. -/
theorem C06_cp (X : CP K) (h : X.Valid) : X.toNumpy = ND.ofFn X.shape (cpEntry X) :=
  ND.ext' (CP.toNumpy_shape h) fun i hi => by
    rw [CP.toNumpy_shape h] at hi
    rw [ND.ofFn_get hi, CP.toNumpy_get h]

/-- **C06, Tucker tensors**: the multilinear contraction of core and factors. -/
theorem C06_tucker (X : Tucker K) (h : X.Valid) : X.toNumpy = ND.ofFn X.shape (tuckerEntry X) :=
  ND.ext' (Tucker.toNumpy_shape X) fun i hi => by
    rw [Tucker.toNumpy_shape X] at hi
    rw [ND.ofFn_get hi, Tucker.toNumpy_get h]

/-- **C06, sparse tensors** with distinct indices: the stored value or zero. -/
theorem C06_sparse (X : Sparse K) (h : X.Valid) (hd : X.Distinct) :
    X.toNumpy = ND.ofFn X.shape (sparseEntry X) :=
  ND.ext' (Sparse.toNumpy_shape X) fun i hi => by
    rw [Sparse.toNumpy_shape X] at hi
    rw [ND.ofFn_get hi, Sparse.toNumpy_get h hd]

example : sTT.toNumpy.get [1, 2] = 2 * 2 + 4 * 5 := by
  rw [TT.toNumpy_get sTT_valid]
  simp [ttEntry, ttVal, sTT, ND.ofFn_get', ND.dim, sum_range_succ]
example : sCP.toNumpy.get [1, 2] = 1 * 2 + 2 * 1 := by
  rw [CP.toNumpy_get sCP_valid]
  simp [cpEntry, cpProd, sCP, ND.ofFn_get', ND.dim, CP.rank, sum_range_succ]
example : sTucker.toNumpy.get [1, 2] = 1 * (2 * 2) + 6 * (2 * 3) := by
  rw [Tucker.toNumpy_get sTucker_valid]
  simp [tuckerEntry, facProd, sTucker, ND.ofFn_get', ND.dim, Tucker.rank, sum_range_succ]

/-! ### C07 -/

/-- **C07, scalars.** `X * c` (and `c * X`) exists, is well-formed, keeps the shape and multiplies
every entry by `c`. -/
theorem C07_mul (X : Tensor K) (hX : X.Valid) (hne : X.NonEmpty) (c : K) :
    ∃ Y, X.mul c = .ok Y ∧ Y.Valid ∧ Y.NonEmpty ∧ Y.shape = X.shape ∧
      ∀ i, Y.toNumpy.get i = X.toNumpy.get i * c := by
  cases X with
  | leaf X =>
    exact ⟨.leaf (X.mul c), rfl, Leaf.mul_valid hX c, trivial, Leaf.mul_shape hX c,
      Leaf.mul_get hX c⟩
  | sum X =>
    have e1 := mk?_map_ok (f := fun t => t.mul c) (sh := X.shape) hne
      (fun t ht => by rw [Leaf.mul_shape (hX t ht).1, (hX t ht).2])
    have hv : (⟨X.shape, X.tensors.map fun t => t.mul c⟩ : TSum K).Valid := by
      intro t ht
      obtain ⟨u, hu, rfl⟩ := List.mem_map.1 ht
      exact ⟨Leaf.mul_valid (hX u hu).1 c, by rw [Leaf.mul_shape (hX u hu).1, (hX u hu).2]⟩
    have hne' : X.tensors ≠ [] := hne
    refine ⟨.sum ⟨X.shape, X.tensors.map fun t : Leaf K => t.mul c⟩, ?_, hv, ?_, rfl, ?_⟩
    · show (TSum.mk? _).map _ = _
      rw [e1]; rfl
    · show X.tensors.map _ ≠ []
      simpa using hne'
    · intro i
      show (TSum.toNumpy _).get _ = X.toNumpy.get i * c
      rw [TSum.toNumpy_get hv, TSum.toNumpy_get hX, List.map_map, ← List.sum_map_mul_right]
      exact congrArg _ (List.map_congr_left fun t ht => Leaf.mul_get (hX t ht).1 c i)

/-- **C07, sequences of coefficients**: summand by summand. -/
theorem C07_seq (X : TSum K) (hX : X.Valid) (hne : X.tensors ≠ []) (cs : List K)
    (hl : cs.length = X.tensors.length) :
    ∃ Y, X.mul (.seq cs) = .ok Y ∧ Y.Valid ∧ Y.shape = X.shape ∧
      ∀ i, Y.toNumpy.get i = ((X.tensors.zip cs).map fun p => p.1.toNumpy.get i * p.2).sum := by
  have hz : (⟨X.shape, List.zipWith Leaf.mul X.tensors cs⟩ : TSum K).Valid := by
    intro t ht
    obtain ⟨k, hk, rfl⟩ := List.getElem_of_mem ht
    have hk' : k < X.tensors.length := by
      simp only [List.length_zipWith] at hk; omega
    simp only [List.getElem_zipWith]
    have hm := hX _ (List.getElem_mem hk')
    exact ⟨Leaf.mul_valid hm.1 _, by rw [Leaf.mul_shape hm.1, hm.2]⟩
  refine ⟨⟨X.shape, List.zipWith Leaf.mul X.tensors cs⟩, ?_, hz, rfl, ?_⟩
  · show (if _ then _ else _) = _
    rw [if_pos hl.symm]
    match h1 : X.tensors, h2 : cs, hne, hl with
    | t :: ts, c :: cs, _, _ =>
      rw [h1] at hz
      show Except.ok _ = Except.ok _
      have : (t.mul c).shape = X.shape := (hz (t.mul c) (by simp)).2
      simp only [List.zipWith_cons_cons, this]
  · intro i
    have e : List.zipWith Leaf.mul X.tensors cs = (X.tensors.zip cs).map fun p => p.1.mul p.2 := by
      rw [List.zip, List.map_zipWith]
    rw [TSum.toNumpy_get hz, e, List.map_map]
    refine congrArg _ (List.map_congr_left fun p hp => ?_)
    exact Leaf.mul_get (hX _ (List.of_mem_zip hp).1).1 _ i

/-- **C07, rejection**: a sequence of the wrong length raises `ValueError`. -/
theorem C07_seq_reject (X : TSum K) (cs : List K) (hl : cs.length ≠ X.tensors.length) :
    X.mul (.seq cs) = .error .valueError := if_neg (Ne.symm hl)

example : sSum.Valid ∧ sSum.tensors ≠ [] ∧ [1, 2, 3, 4, (5 : ℤ)].length = sSum.tensors.length :=
  ⟨sSum_valid, by simp [sSum], rfl⟩

end

/-- **C07, negation.** -/
theorem C07_neg [CommRing K] (X : Tensor K) (hX : X.Valid) (hne : X.NonEmpty) :
    ∃ Y, X.neg = .ok Y ∧ Y.Valid ∧ Y.NonEmpty ∧ Y.shape = X.shape ∧
      ∀ i, Y.toNumpy.get i = - X.toNumpy.get i := by
  obtain ⟨Y, h1, h2, h3, h4, h5⟩ := C07_mul X hX hne (-1)
  exact ⟨Y, h1, h2, h3, h4, fun i => by rw [h5, mul_neg_one]⟩

/-- **C07, division** by a nonzero number; `1 / 0` raises. -/
theorem C07_div [Field K] [DecidableEq K] (X : Tensor K) (hX : X.Valid) (hne : X.NonEmpty) (c : K) :
    (c = 0 → X.div c = .error .zeroDivisionError) ∧
    (c ≠ 0 → ∃ Y, X.div c = .ok Y ∧ Y.Valid ∧ Y.NonEmpty ∧ Y.shape = X.shape ∧
      ∀ i, Y.toNumpy.get i = X.toNumpy.get i / c) := by
  refine ⟨fun h => if_pos h, fun h => ?_⟩
  obtain ⟨Y, h1, h2, h3, h4, h5⟩ := C07_mul X hX hne (1 / c)
  exact ⟨Y, (if_neg h).trans h1, h2, h3, h4, fun i => by rw [h5, mul_one_div]⟩

/-! ### C08 -/

/-- **C08.** Adding two tensor trains with at least two modes: well-formed result of the same
shape, ranks added bond by bond, entries added. -/
theorem C08 [CommSemiring K] (X Y : TT K) (hX : X.Valid) (hY : Y.Valid) (hs : X.shape = Y.shape)
    (hd : 2 ≤ X.shape.length) :
    (X.add Y).Valid ∧ (X.add Y).shape = X.shape ∧
    (X.add Y).rank = List.zipWith (· + ·) X.rank Y.rank ∧
    ∀ i, (X.add Y).toNumpy.get i = X.toNumpy.get i + Y.toNumpy.get i := by
  obtain ⟨h1, h2, h3, h4⟩ := TT.add_spec hX hY hs hd
  exact ⟨h1, h2, h3, fun i => by
    rw [TT.toNumpy_get h1, TT.toNumpy_get hX, TT.toNumpy_get hY, h4]⟩

example : sTT.Valid ∧ sTT.shape = sTT.shape ∧ 2 ≤ sTT.shape.length := ⟨sTT_valid, rfl, by simp [sTT, TT.shape]⟩

/-- **C08 fails for one mode**: the sum of two one-core tensor trains has two modes. -/
theorem C08_one_mode [Zero K] (C D : ND K) :
    ((⟨[C]⟩ : TT K).add ⟨[D]⟩).shape.length = 2 := rfl

/-! ### C09 -/

/-- Expressions over tensors. -/
inductive TExpr (K : Type*) [Zero K]
  | lit (X : Tensor K)
  | add (a b : TExpr K)
  | sub (a b : TExpr K)
  | mul (a : TExpr K) (c : K)
  | neg (a : TExpr K)
  | div (a : TExpr K) (c : K)

namespace TExpr
variable [Field K] [DecidableEq K]

/-- what python computes -/
def eval : TExpr K → Except PyErr (Tensor K)
  | lit X => .ok X
  | add a b => do (← a.eval).add (← b.eval)
  | sub a b => do (← a.eval).sub (← b.eval)
  | mul a c => do (← a.eval).mul c
  | neg a => do (← a.eval).neg
  | div a c => do (← a.eval).div c

/-- the same expression on entries of dense arrays -/
def entry (i : List ℕ) : TExpr K → K
  | lit X => X.toNumpy.get i
  | add a b => a.entry i + b.entry i
  | sub a b => a.entry i - b.entry i
  | mul a c => a.entry i * c
  | neg a => - a.entry i
  | div a c => a.entry i / c

/-- all tensors in the expression are well-formed and of shape `sh`, no divisor is zero -/
def WF (sh : List ℕ) : TExpr K → Prop
  | lit X => X.Valid ∧ X.NonEmpty ∧ X.shape = sh
  | add a b => a.WF sh ∧ b.WF sh
  | sub a b => a.WF sh ∧ b.WF sh
  | mul a _ => a.WF sh
  | neg a => a.WF sh
  | div a c => a.WF sh ∧ c ≠ 0

end TExpr

theorem add_ok [CommSemiring K] {X Y : Tensor K} (hX : X.Valid) (hY : Y.Valid) (nX : X.NonEmpty)
    (hs : Y.shape = X.shape) :
    ∃ Z, X.add Y = .ok Z ∧ Z.Valid ∧ Z.NonEmpty ∧ Z.shape = X.shape ∧
      ∀ i, Z.toNumpy.get i = X.toNumpy.get i + Y.toNumpy.get i := by
  have key : ∀ (ts us : List (Leaf K)) (sh : List ℕ), ts ≠ [] →
      (∀ t ∈ ts, t.Valid ∧ t.shape = sh) → (∀ t ∈ us, t.Valid ∧ t.shape = sh) →
      ∃ Z : TSum K, TSum.mk? (ts ++ us) = .ok Z ∧ Z.Valid ∧ Z.tensors ≠ [] ∧ Z.shape = sh ∧
        ∀ i, Z.toNumpy.get i = (ts.map fun t => t.toNumpy.get i).sum
          + (us.map fun t => t.toNumpy.get i).sum := by
    intro ts us sh hne h1 h2
    have hv : (⟨sh, ts ++ us⟩ : TSum K).Valid := by
      intro t ht
      rcases List.mem_append.1 ht with h | h
      · exact h1 t h
      · exact h2 t h
    refine ⟨⟨sh, ts ++ us⟩, ?_, hv, by simp [hne], rfl, ?_⟩
    · match ts, hne with
      | t :: ts, _ =>
        show Except.ok _ = Except.ok _
        rw [(h1 t (by simp)).2]
    · intro i
      rw [TSum.toNumpy_get hv]; simp
  have one : ∀ (X : Leaf K), X.Valid → ∀ t ∈ [X], t.Valid ∧ t.shape = X.shape := by
    intro X hX t ht
    simp only [List.mem_singleton] at ht
    subst ht; exact ⟨hX, rfl⟩
  have shift : ∀ {ts : List (Leaf K)} {sh sh'}, sh = sh' → (∀ t ∈ ts, t.Valid ∧ t.shape = sh) →
      ∀ t ∈ ts, t.Valid ∧ t.shape = sh' := by intro ts sh sh' e; rw [e]; exact id
  cases X with
  | leaf X =>
    cases Y with
    | leaf Y =>
      obtain ⟨Z, h1, h2, h3, h4, h5⟩ := key [X] [Y] X.shape (by simp) (one X hX)
        (shift hs (one Y hY))
      refine ⟨.sum Z, congrArg (Except.map Tensor.sum) h1, h2, h3, h4, fun i => ?_⟩
      exact (h5 i).trans (by simp [Tensor.toNumpy])
    | sum Y =>
      obtain ⟨Z, h1, h2, h3, h4, h5⟩ := key [X] Y.tensors X.shape (by simp) (one X hX)
        (shift hs hY)
      refine ⟨.sum Z, congrArg (Except.map Tensor.sum) h1, h2, h3, h4, fun i => ?_⟩
      exact (h5 i).trans (by simp [Tensor.toNumpy, TSum.toNumpy_get hY])
  | sum X =>
    cases Y with
    | leaf Y =>
      obtain ⟨Z, h1, h2, h3, h4, h5⟩ := key X.tensors [Y] X.shape nX hX
        (shift hs (one Y hY))
      refine ⟨.sum Z, congrArg (Except.map Tensor.sum) h1, h2, h3, h4, fun i => ?_⟩
      exact (h5 i).trans (by simp [Tensor.toNumpy, TSum.toNumpy_get hX])
    | sum Y =>
      obtain ⟨Z, h1, h2, h3, h4, h5⟩ := key X.tensors Y.tensors X.shape nX hX
        (shift hs hY)
      refine ⟨.sum Z, congrArg (Except.map Tensor.sum) h1, h2, h3, h4, fun i => ?_⟩
      exact (h5 i).trans (by simp [Tensor.toNumpy, TSum.toNumpy_get hY, TSum.toNumpy_get hX])

/-- **C09.** Every expression of `+`, `-`, scalar `*`, unary `-` and `/` over well-formed tensors of
one shape — any formats, any order and grouping — evaluates without error to a well-formed tensor of
that shape whose entries are those of the same expression on dense entries. -/
theorem C09 [Field K] [DecidableEq K] (sh : List ℕ) (e : TExpr K) (h : e.WF sh) :
    ∃ Y, e.eval = .ok Y ∧ Y.Valid ∧ Y.NonEmpty ∧ Y.shape = sh ∧
      ∀ i, Y.toNumpy.get i = e.entry i := by
  induction e with
  | lit X => exact ⟨X, rfl, h.1, h.2.1, h.2.2, fun _ => rfl⟩
  | add a b iha ihb =>
    obtain ⟨A, ea, va, na, sa, ga⟩ := iha h.1
    obtain ⟨B, eb, vb, nb, sb, gb⟩ := ihb h.2
    obtain ⟨Z, h1, h2, h3, h4, h5⟩ := add_ok va vb na (sb.trans sa.symm)
    refine ⟨Z, ?_, h2, h3, h4.trans sa, fun i => by rw [h5, ga, gb]; rfl⟩
    simp only [TExpr.eval, ea, eb]
    exact h1
  | sub a b iha ihb =>
    obtain ⟨A, ea, va, na, sa, ga⟩ := iha h.1
    obtain ⟨B, eb, vb, nb, sb, gb⟩ := ihb h.2
    obtain ⟨B', eb', vb', nb', sb', gb'⟩ := C07_neg B vb nb
    obtain ⟨Z, h1, h2, h3, h4, h5⟩ := add_ok va vb' na (sb'.trans (sb.trans sa.symm))
    refine ⟨Z, ?_, h2, h3, h4.trans sa, fun i => by
      rw [h5, ga, gb', gb]; exact (sub_eq_add_neg _ _).symm⟩
    simp only [TExpr.eval, ea, eb]
    show Tensor.sub A B = _
    rw [Tensor.sub, eb']
    exact h1
  | mul a c iha =>
    obtain ⟨A, ea, va, na, sa, ga⟩ := iha h
    obtain ⟨Z, h1, h2, h3, h4, h5⟩ := C07_mul A va na c
    refine ⟨Z, ?_, h2, h3, h4.trans sa, fun i => by rw [h5, ga]; rfl⟩
    simp only [TExpr.eval, ea]
    exact h1
  | neg a iha =>
    obtain ⟨A, ea, va, na, sa, ga⟩ := iha h
    obtain ⟨Z, h1, h2, h3, h4, h5⟩ := C07_neg A va na
    refine ⟨Z, ?_, h2, h3, h4.trans sa, fun i => by rw [h5, ga]; rfl⟩
    simp only [TExpr.eval, ea]
    exact h1
  | div a c iha =>
    obtain ⟨A, ea, va, na, sa, ga⟩ := iha h.1
    obtain ⟨Z, h1, h2, h3, h4, h5⟩ := (C07_div A va na c).2 h.2
    refine ⟨Z, ?_, h2, h3, h4.trans sa, fun i => by rw [h5, ga]; rfl⟩
    simp only [TExpr.eval, ea]
    exact h1

/-- an expression mixing formats and groupings, over `ℚ` -/
def sExpr : TExpr ℚ :=
  let d : Tensor ℚ := .leaf (.dense (ND.ofFn [2, 3] fun i => i.getD 0 0 + 1))
  let s : Tensor ℚ := .leaf (.sparse ⟨[2, 3], [([0, 1], 4), ([1, 2], -7)]⟩)
  .sub (.add (.lit d) (.mul (.lit s) 3)) (.div (.sub (.lit s) (.neg (.lit d))) 2)

example : sExpr.WF [2, 3] := by
  have hs : (⟨[2, 3], [([0, 1], 4), ([1, 2], -7)]⟩ : Sparse ℚ).Valid := by
    intro e he
    simp only [List.mem_cons, List.not_mem_nil, or_false] at he
    rcases he with rfl | rfl <;> simp
  exact ⟨⟨⟨trivial, trivial, rfl⟩, hs, trivial, rfl⟩, ⟨⟨hs, trivial, rfl⟩, trivial, trivial, rfl⟩,
    by norm_num⟩

example : sExpr.entry [1, 2] = (2 + -7 * 3) - (-7 - -2) / 2 := by
  simp [sExpr, TExpr.entry, Tensor.toNumpy, Leaf.toNumpy, Sparse.toNumpy, ND.setEntry, ND.ofFn_get']
  norm_num

/-! ### C11 -/

section
variable [CommSemiring K]

/-- **C11.** `X.dot(Y)` is the Euclidean inner product of the dense arrays, for all well-formed
tensors of equal shape in all formats (sparse tensors storing no index twice). -/
theorem C11 (X Y : Tensor K) (hX : X.Valid) (hY : Y.Valid) (dX : X.Distinct) (dY : Y.Distinct)
    (hs : X.shape = Y.shape) : X.dot Y = innerND X.toNumpy Y.toNumpy :=
  Tensor.dot_eq hX hY dX dY hs

example : (Tensor.sum sSum).Valid ∧ (Tensor.sum sSum).Distinct := ⟨sSum_valid, sSum_distinct⟩

/-- **C11, repeated indices.** A sparse tensor storing index `0` twice (values 1 and 1) has the
dense array `[1]`, but its inner product with the dense `[1]` is 1 while with the CP tensor `[1]`
it is 2. -/
theorem C11_duplicates :
    let X : Sparse ℤ := ⟨[1], [([0], 1), ([0], 1)]⟩
    let Y : Leaf ℤ := .dense (ND.ofFn [1] fun _ => 1)
    let Z : Leaf ℤ := .cp ⟨[ND.ofFn [1, 1] fun _ => 1]⟩
    innerND X.toNumpy Y.toNumpy = 1 ∧ innerND X.toNumpy Z.toNumpy = 1 ∧
    Leaf.dot (.sparse X) Y = 1 ∧ Leaf.dot (.sparse X) Z = 2 := by
  refine ⟨?_, ?_, ?_, ?_⟩
  · simp [innerND, Sparse.toNumpy, Leaf.toNumpy, ND.setEntry, ND.ofFn_get']
  · simp [innerND, Sparse.toNumpy, Leaf.toNumpy, ND.setEntry, ND.ofFn_get', CP.toNumpy, ND.sumLast]
    decide
  · simp [Leaf.dot, Leaf.gather?, Leaf.dotRev, Leaf.denseDot, Leaf.toNumpy, Sparse.toNumpy,
      ND.setEntry, ND.ofFn_get', ND.reshape]
  · simp [Leaf.dot, Leaf.gather?, Leaf.vdot, CP.gather, CP.rank, ND.dim, ND.ofFn_get']

/-! ### C14 -/

/-- **C14.** `gather` (tensor trains, CP, sparse) returns the dense entries at the given in-range
indices, in order. -/
theorem C14 (X : Leaf K) (h : X.Valid) (g : List (List ℕ) → List K) (hg : X.gather? = some g)
    (idxs : List (List ℕ)) (hin : ∀ i ∈ idxs, InR X.shape i) :
    g idxs = idxs.map fun i => X.toNumpy.get i := Leaf.gather_eq h hg idxs hin

example : (Leaf.tt sTT).Valid ∧ (Leaf.tt sTT).gather? = some sTT.gather ∧
    ∀ i ∈ [[0, 1], [1, 2], [1, 2]], InR (Leaf.tt sTT).shape i :=
  ⟨sTT_valid, rfl, by simp [Leaf.shape, TT.shape, sTT, ND.dim]⟩

/-! ### C15 -/

/-- **C15.** `split(n)` with `n > 0` gives `n` sparse tensors of the same shape whose stored entries
in order are those of the original; if no index is stored twice, the lazy sum denotes the original
tensor.  `split(0)` raises. -/
theorem C15 (X : Sparse K) (n : ℕ) (hn : 0 < n) :
    ∃ parts : List (Sparse K), X.split n = .ok ⟨X.shape, parts.map Leaf.sparse⟩ ∧
      parts.length = n ∧ (∀ S ∈ parts, S.shape = X.shape) ∧
      (parts.map fun S => S.entries).flatten = X.entries ∧
      (X.Valid → X.Distinct → ∀ i,
        (⟨X.shape, parts.map Leaf.sparse⟩ : TSum K).toNumpy.get i = X.toNumpy.get i) := by
  have hsh : ∀ S ∈ X.splitList n, S.shape = X.shape := by
    intro S hS
    simp only [Sparse.splitList, List.mem_map] at hS
    obtain ⟨k, _, rfl⟩ := hS
    split_ifs <;> rfl
  have hlen : (X.splitList n).length = n := by simp [Sparse.splitList]
  refine ⟨X.splitList n, ?_, hlen, hsh, X.splitList_entries hn, ?_⟩
  · rw [Sparse.split, if_neg (by omega)]
    match h : X.splitList n with
    | [] => rw [h] at hlen; simp at hlen; omega
    | S :: Ss =>
      show Except.ok _ = Except.ok _
      have : S.shape = X.shape := hsh S (by simp [h])
      rw [← this]; rfl
  · intro hv hd i
    have hfl := X.splitList_entries hn
    have hmem : ∀ S ∈ X.splitList n, ∀ e ∈ S.entries, e ∈ X.entries := by
      intro S hS e he
      rw [← hfl, List.mem_flatten]
      exact ⟨S.entries, List.mem_map_of_mem hS, he⟩
    have hval : ∀ S ∈ X.splitList n, S.Valid := fun S hS e he => by
      rw [hsh S hS]; exact hv e (hmem S hS e he)
    have hdis : ∀ S ∈ X.splitList n, S.Distinct := by
      intro S hS
      have h1 : S.entries.Sublist X.entries := by
        rw [← hfl]; exact List.sublist_flatten_of_mem (List.mem_map_of_mem hS)
      exact List.Nodup.sublist (h1.map Prod.fst) hd
    have hT : (⟨X.shape, (X.splitList n).map Leaf.sparse⟩ : TSum K).Valid := by
      intro t ht
      obtain ⟨S, hS, rfl⟩ := List.mem_map.1 ht
      exact ⟨hval S hS, hsh S hS⟩
    rw [TSum.toNumpy_get hT, Sparse.toNumpy_get hv hd, List.map_map, sparseEntry]
    conv_rhs => rw [← hfl, List.map_flatten, List.sum_flatten, List.map_map, List.map_map]
    refine congrArg _ (List.map_congr_left fun S hS => ?_)
    exact Sparse.toNumpy_get (hval S hS) (hdis S hS) i

theorem C15_zero (X : Sparse K) : X.split 0 = .error .zeroDivisionError := rfl

example : sSparse.Valid ∧ sSparse.Distinct ∧ 0 < 2 := ⟨sSparse_valid, sSparse_distinct, by simp⟩
example : (sSparse.splitList 2).map (fun S => S.entries)
    = [[([0, 1], 4)], [([1, 2], -7), ([1, 0], 2)]] := by decide

/-! ### C16 -/

/-- **C16.** `to_sparse` stores every index of the shape exactly once, with its entry, and
`to_numpy` gives the array back. -/
theorem C16 (X : ND K) :
    X.toSparse.shape = X.shape ∧ X.toSparse.Valid ∧ X.toSparse.Distinct ∧
    (∀ e, e ∈ X.toSparse.entries ↔ InR X.shape e.1 ∧ e.2 = X.get e.1) ∧
    X.toSparse.toNumpy = X := by
  have hmem : ∀ e, e ∈ X.toSparse.entries ↔ InR X.shape e.1 ∧ e.2 = X.get e.1 := by
    intro e
    rw [X.toSparse_entries, List.mem_map]
    constructor
    · rintro ⟨i, hi, rfl⟩; exact ⟨mem_allIdx.1 hi, rfl⟩
    · rintro ⟨h1, h2⟩; exact ⟨e.1, mem_allIdx.2 h1, by rw [← h2]⟩
  have hv : X.toSparse.Valid := fun e he => ((hmem e).1 he).1
  have hd : X.toSparse.Distinct := by
    rw [Sparse.Distinct, X.toSparse_entries, List.map_map]
    have : (Prod.fst ∘ fun i => (i, X.get i)) = id := rfl
    rw [this, List.map_id]
    exact allIdx_nodup _
  refine ⟨rfl, hv, hd, hmem, ?_⟩
  refine ND.ext' (Sparse.toNumpy_shape _) fun i hi => ?_
  rw [Sparse.toNumpy_shape] at hi
  rw [Sparse.toNumpy_get hv hd, sparseEntry, X.toSparse_entries, List.map_map]
  have hi' : InR X.shape i := hi
  have hsum : ∀ (l : List (List ℕ)), l.Nodup →
      (l.map fun j => if j = i then X.get j else 0).sum = if i ∈ l then X.get i else 0 := by
    intro l hl
    induction l with
    | nil => simp
    | cons j l ih =>
      rw [List.nodup_cons] at hl
      rw [List.map_cons, List.sum_cons, ih hl.2]
      by_cases hji : j = i
      · subst hji; simp [hl.1]
      · have : ¬ i = j := fun h => hji h.symm
        simp [hji, this]
  have := hsum (allIdx X.shape) (allIdx_nodup _)
  rw [if_pos (mem_allIdx.2 hi')] at this
  exact this

end

/-! ### C17 -/

/-- The number of stored floating point numbers of a tensor (an index counts like a number in the
sparse format). -/
def storedNumbers [Zero K] : Leaf K → ℕ
  | .dense X => X.shape.prod
  | .sparse X => X.entries.length * (X.shape.length + 1)
  | .tt X => (X.cores.map fun C => C.shape.prod).sum
  | .cp X => (X.cores.map fun C => C.shape.prod).sum
  | .tucker X => X.core.shape.prod + (X.factors.map fun C => C.shape.prod).sum

/-- **C17.** The reported size of every tensor that is not a CP tensor is the number of stored
numbers; so is `size()` of a CP tensor; and a lazy sum without CP summands reports the total.
The attribute `size` of a CP tensor is not a number, hence a lazy sum with a CP summand raises
`TypeError`. -/
theorem C17 [Zero K] (X : Leaf K) (S : TSum K) :
    (∀ n, X.size? = some n → n = storedNumbers X) ∧
    (X.size? = none ↔ ∃ Y : CP K, X = .cp Y) ∧
    (∀ Y : CP K, X = .cp Y → Y.sizeCall = storedNumbers X) ∧
    ((∀ t ∈ S.tensors, ∀ Y : CP K, t ≠ .cp Y) → S.size = .ok (S.tensors.map storedNumbers).sum) ∧
    ((∃ Y : CP K, .cp Y ∈ S.tensors) → S.size = .error .typeError) := by
  have h1 : ∀ (X : Leaf K) n, X.size? = some n → n = storedNumbers X := by
    intro X n h
    cases X <;> cases h <;> rfl
  refine ⟨h1 X, ?_, ?_, ?_, ?_⟩
  · cases X <;> simp [Leaf.size?]
  · rintro Y rfl; rfl
  · intro h
    have : ∀ (ts : List (Leaf K)) (a : ℕ), (∀ t ∈ ts, ∀ Y : CP K, t ≠ .cp Y) →
        ts.foldlM (fun acc t => match t.size? with
          | some n => (.ok (acc + n) : Except PyErr ℕ)
          | none => .error .typeError) a = .ok (a + (ts.map storedNumbers).sum) := by
      intro ts
      induction ts with
      | nil => intro a _; rfl
      | cons t ts ih =>
        intro a h
        rw [List.foldlM_cons]
        cases hs : t.size? with
        | none =>
          cases t with
          | cp Y => exact absurd rfl (h _ List.mem_cons_self Y)
          | _ => cases hs
        | some n =>
          have := h1 t n hs
          subst this
          refine (ih _ fun t ht => h t (by simp [ht])).trans ?_
          simp [add_assoc]
    have := this S.tensors 0 h
    rw [zero_add] at this
    exact this
  · rintro ⟨Y, hY⟩
    have : ∀ (ts : List (Leaf K)) (a : ℕ), .cp Y ∈ ts →
        ts.foldlM (fun acc t => match t.size? with
          | some n => (.ok (acc + n) : Except PyErr ℕ)
          | none => .error .typeError) a = .error .typeError := by
      intro ts
      induction ts with
      | nil => intro a h; cases h
      | cons t ts ih =>
        intro a h
        rw [List.foldlM_cons]
        cases hs : t.size? with
        | none => rfl
        | some n =>
          refine ih _ ?_
          rcases List.mem_cons.1 h with rfl | h
          · cases hs
          · exact h
    exact this S.tensors 0 hY

example : sSum.size = .error .typeError := (C17 (.tt sTT) sSum).2.2.2.2 ⟨sCP, by simp [sSum]⟩
example : (⟨[2, 3], [.tt sTT, .dense sDense]⟩ : TSum ℤ).size = .ok (10 + 6) := by
  rw [(C17 (.tt sTT) _).2.2.2.1 (by simp)]
  rfl

/-! ### C21 -/

section
variable [CommSemiring K]

/-- **C21, left to right.** `partial_dense("lr")` of a tensor train with `d ≥ 2` modes has `d - 1`
entries; the entry number `mu` is the matrix with rows indexed row-major by the first `mu + 1`
tensor indices and one column per value of bond `mu`, holding the products of core slices. -/
theorem C21_lr (X : TT K) (h : X.Valid) (hd : 2 ≤ X.shape.length) :
    X.partialDenseLR.length = X.shape.length - 1 ∧
    ∀ mu, (hmu : mu < X.partialDenseLR.length) →
      (X.partialDenseLR[mu]).shape = [(X.shape.take (mu + 1)).prod, X.rank.getD mu 0] ∧
      ∀ p, InR (X.shape.take (mu + 1)) p → ∀ b,
        (X.partialDenseLR[mu]).get [ravel (X.shape.take (mu + 1)) p, b]
          = ttVal (X.cores.take (mu + 1)) p 0 b := by
  obtain ⟨cores⟩ := X
  obtain ⟨hne, hch⟩ := h
  match cores, hne, hch, hd with
  | C :: Cs, _, ⟨n, t, hC, hCs⟩, hd =>
    have hCs0 : Cs ≠ [] := by rintro rfl; simp [TT.shape] at hd
    obtain ⟨u, n', hdl, hlast⟩ := chain_last hCs hCs0
    have hP : IsUnfL [C] (C.reshape [C.dim 0 * C.dim 1, C.dim 2]) := by
      obtain ⟨d0, d1, d2⟩ := dim_of_shape3 hC
      refine ⟨t, ⟨n, t, hC, rfl⟩, by simp [coreShape, d0, d1, d2], ?_⟩
      intro p hp b
      match p, hp with
      | [x], hp =>
        have hx : x < n := by simpa [coreShape, d1] using hp
        rw [d0, d1, d2, ttVal_cons hC]
        have := ND.reshape_merge12 hC 0 x b hx
        simp only [coreShape, List.map_cons, List.map_nil, ravel, d1]
        simp only [List.prod_nil, mul_one, add_zero, zero_mul, zero_add] at this ⊢
        rw [this]
        by_cases hb : b < t
        · simp [ttVal, hb]
        · rw [ND.oob3 hC (by simp [hb])]
          refine (sum_eq_zero fun y hy => ?_).symm
          have hy' : y ≠ b := by rintro rfl; simp at hy; exact hb hy
          simp [ttVal, hy']
    obtain ⟨L, hL, hlen, hk⟩ := partialLR_foldl Cs.dropLast [C] _
      [C.reshape [C.dim 0 * C.dim 1, C.dim 2]] t u (by simp) ⟨n, t, hC, rfl⟩ hdl hP
    have hpd : (⟨C :: Cs⟩ : TT K).partialDenseLR = C.reshape [C.dim 0 * C.dim 1, C.dim 2] :: L := hL
    have hall : ∀ mu, (hmu : mu < (⟨C :: Cs⟩ : TT K).partialDenseLR.length) →
        IsUnfL ((C :: Cs).take (mu + 1)) ((⟨C :: Cs⟩ : TT K).partialDenseLR[mu]) := by
      intro mu hmu
      simp only [hpd] at hmu ⊢
      match mu, hmu with
      | 0, _ => exact hP
      | k + 1, hmu =>
        have hk' : k < L.length := by simpa using hmu
        have h3 := hk k hk'
        rw [List.getElem_cons_succ, List.take_succ_cons]
        have : (Cs.dropLast).take (k + 1) = Cs.take (k + 1) := by
          rw [List.dropLast_eq_take, List.take_take]
          congr 1
          rw [hlen, List.length_dropLast] at hk'
          omega
        rw [this] at h3
        exact h3
    refine ⟨by rw [hpd]; simp [TT.shape, hlen]; have := List.length_pos_of_ne_nil hCs0; omega, ?_⟩
    intro mu hmu
    obtain ⟨r, h1, h2, h3⟩ := hall mu hmu
    have hsh : coreShape ((C :: Cs).take (mu + 1)) = (TT.shape ⟨C :: Cs⟩).take (mu + 1) := by
      simp only [coreShape, TT.shape, List.map_take]
    rw [hsh] at h2 h3
    have hr : r = (TT.rank ⟨C :: Cs⟩).getD mu 0 := by
      have hlt : mu < Cs.length := by
        rw [hpd] at hmu; simp [hlen] at hmu
        have := List.length_pos_of_ne_nil hCs0; omega
      have hch' : TTChain 1 ((C :: Cs).take (mu + 1) ++ (C :: Cs).drop (mu + 1)) 1 := by
        rw [List.take_append_drop]; exact ⟨n, t, hC, hCs⟩
      obtain ⟨r', h4, h5⟩ := hch'.split
      have := TTChain.unique (by simp) h1 h4
      subst this
      rw [List.drop_succ_cons, List.drop_eq_getElem_cons hlt] at h5
      obtain ⟨m', t', h6, _⟩ := h5
      simp [TT.rank, ND.dim, List.getD_eq_getElem?_getD, hlt, h6]
    exact ⟨by rw [h2, hr], h3⟩

/-- **C21, right to left.** The mirrored statement: entry number `mu` of `partial_dense("rl")` has
one row per value of bond `d - 2 - mu` and columns indexed row-major by the last `mu + 1` tensor
indices. -/
theorem C21_rl (X : TT K) (h : X.Valid) (hd : 2 ≤ X.shape.length) :
    X.partialDenseRL.length = X.shape.length - 1 ∧
    ∀ mu, (hmu : mu < X.partialDenseRL.length) →
      let k := X.shape.length - 1 - mu
      (X.partialDenseRL[mu]).shape = [X.rank.getD (k - 1) 0, (X.shape.drop k).prod] ∧
      ∀ q, InR (X.shape.drop k) q → ∀ a, a < X.rank.getD (k - 1) 0 →
        (X.partialDenseRL[mu]).get [a, ravel (X.shape.drop k) q]
          = ttVal (X.cores.drop k) q a 0 := by
  obtain ⟨cores⟩ := X
  obtain ⟨hne, hch⟩ := h
  simp only [] at hne hch
  obtain ⟨u, n, hinit, hlast⟩ := chain_last hch hne
  set C := cores.getLast hne with hCdef
  have hcores : cores = cores.dropLast ++ [C] := (List.dropLast_append_getLast hne).symm
  set Bs := cores.dropLast with hBs
  have hB0 : Bs ≠ [] := by
    intro h0
    rw [h0] at hcores
    simp [TT.shape, hcores] at hd
  have hlenB : cores.length = Bs.length + 1 := by rw [hcores]; simp
  have hBtail : ∃ s, TTChain s Bs.tail u := by
    match hb : Bs, hB0, hinit with
    | B :: Bs', _, ⟨_, s, _, h3⟩ => exact ⟨s, h3⟩
  obtain ⟨s, hBt⟩ := hBtail
  have hP : IsUnfR [C] (C.reshape [C.dim 0, C.dim 1 * C.dim 2]) := by
    obtain ⟨d0, d1, d2⟩ := dim_of_shape3 hlast
    refine ⟨u, ⟨n, 1, hlast, rfl⟩, by simp [coreShape, d0, d1, d2], ?_⟩
    intro p hp a ha
    match p, hp with
    | [x], hp =>
      have hx : x < n := by simpa [coreShape, d1] using hp
      rw [d0, d1, d2, ttVal_cons hlast]
      have := ND.reshape_merge23 hlast a x 0 (by simp)
      simp only [coreShape, List.map_cons, List.map_nil, ravel, d1]
      simp only [List.prod_nil, mul_one, add_zero] at this ⊢
      rw [this]
      simp [ttVal]
  obtain ⟨L, hL, hlen, hk⟩ := partialRL_foldl Bs.tail.reverse [C] _
    [C.reshape [C.dim 0, C.dim 1 * C.dim 2]] u s (by simp) ⟨n, 1, hlast, rfl⟩
    (by rw [List.reverse_reverse]; exact hBt) hP
  have hpd : (⟨cores⟩ : TT K).partialDenseRL = C.reshape [C.dim 0, C.dim 1 * C.dim 2] :: L := by
    have e1 : cores.reverse = C :: Bs.reverse := by rw [hcores]; simp
    have e2 : cores.tail.dropLast = Bs.tail := by
      rw [hBs, List.tail_dropLast]
    unfold TT.partialDenseRL
    simp only [e1, e2]
    exact hL
  have hlenL : L.length = Bs.length - 1 := by rw [hlen]; simp
  have hBpos := List.length_pos_of_ne_nil hB0
  have hall : ∀ mu, (hmu : mu < (⟨cores⟩ : TT K).partialDenseRL.length) →
      IsUnfR (cores.drop (cores.length - 1 - mu)) ((⟨cores⟩ : TT K).partialDenseRL[mu]) := by
    intro mu hmu
    simp only [hpd] at hmu ⊢
    match mu, hmu with
    | 0, _ =>
      have : cores.drop (cores.length - 1 - 0) = [C] := by
        have e : cores.length - 1 - 0 = Bs.length := by omega
        rw [e, hcores, List.drop_left]
      rw [this]; exact hP
    | k + 1, hmu =>
      have hk' : k < L.length := by simpa using hmu
      have h3 := hk k hk'
      rw [List.getElem_cons_succ]
      have : (Bs.tail.reverse.take (k + 1)).reverse ++ [C] = cores.drop (cores.length - 1 - (k + 1)) := by
        rw [List.take_reverse, List.reverse_reverse]
        conv_rhs => rw [hcores]
        rw [List.drop_append_of_le_length (by simp)]
        congr 1
        rw [← List.drop_one, List.drop_drop]
        congr 1
        simp
        omega
      rw [this] at h3
      exact h3
  have hlenP : (⟨cores⟩ : TT K).partialDenseRL.length = Bs.length := by
    rw [hpd]; simp only [List.length_cons, hlenL]; omega
  refine ⟨by rw [hlenP]; simp [TT.shape, hlenB], ?_⟩
  intro mu hmu k
  rw [hlenP] at hmu
  obtain ⟨r, h1, h2, h3⟩ := hall mu (by rw [hlenP]; exact hmu)
  have hkk : k = cores.length - 1 - mu := by simp [k, TT.shape]
  rw [← hkk] at h1 h2 h3
  have hsh : coreShape (cores.drop k) = (TT.shape ⟨cores⟩).drop k := by
    simp only [coreShape, TT.shape, List.map_drop]
  rw [hsh] at h2 h3
  have hr : r = (TT.rank ⟨cores⟩).getD (k - 1) 0 := by
    have hlt : k < cores.length := by omega
    have hk0 : 0 < k := by omega
    rw [List.drop_eq_getElem_cons hlt] at h1
    obtain ⟨m', t', h6, _⟩ := h1
    have : k - 1 + 1 = k := by omega
    have hlt' : k - 1 < cores.length - 1 := by omega
    simp [TT.rank, List.getD_eq_getElem?_getD, this, hlt, ND.dim, h6]
  rw [hr] at h2 h3
  exact ⟨h2, h3⟩

example : sTT.Valid ∧ 2 ≤ sTT.shape.length ∧ sTT.partialDenseRL.length = 1 ∧
    sTT.partialDenseLR.length = 1 :=
  ⟨sTT_valid, by simp [sTT, TT.shape], rfl, rfl⟩

/-! ### C22 -/

/-- **C22, matricize.** With `mat_shape=True` the entry with index `i` stands in the row given by
the row-major position of the selected modes of `i` and the column given by that of the other modes
(in increasing order). -/
theorem C22_matricize (A : ND K) (mode : List ℕ) (hm : ∀ a ∈ mode, a < A.ndim) :
    let rest := (List.range A.ndim).filter (fun a => a ∉ mode)
    (A.matricize mode true).shape =
      [(mode.map fun a => A.shape.getD a 0).prod, (rest.map fun a => A.shape.getD a 0).prod] ∧
    ∀ i, InR A.shape i → (A.matricize mode true).get
      [ravel (mode.map fun a => A.shape.getD a 0) (mode.map fun a => i.getD a 0),
       ravel (rest.map fun a => A.shape.getD a 0) (rest.map fun a => i.getD a 0)] = A.get i :=
  ⟨matricize_shape_true A mode, fun _ hi => matricize_get_true hm hi⟩

/-- **C22, matricize** with `mat_shape=False`: the selected modes stay separate axes. -/
theorem C22_matricize_false (A : ND K) (mode : List ℕ) (hm : ∀ a ∈ mode, a < A.ndim) :
    let rest := (List.range A.ndim).filter (fun a => a ∉ mode)
    (A.matricize mode false).shape =
      (mode.map fun a => A.shape.getD a 0) ++ [(rest.map fun a => A.shape.getD a 0).prod] ∧
    ∀ i, InR A.shape i → (A.matricize mode false).get
      ((mode.map fun a => i.getD a 0) ++
       [ravel (rest.map fun a => A.shape.getD a 0) (rest.map fun a => i.getD a 0)]) = A.get i :=
  ⟨matricize_shape_false A mode, fun _ hi => matricize_get_false hm hi⟩

/-- **C22, round trip.** -/
theorem C22_dematricize (A : ND K) (m : ℕ) (hm : m < A.ndim) :
    (A.matricize [m] false).dematricize m A.shape = A := dematricize_matricize hm

example : ∀ a ∈ [2, 0], a < (ND.ofFn [2, 3, 4] fun _ => (1 : ℤ)).ndim := by simp [ND.ndim]

/-! ### C60 (tensor trains) -/

/-- **C60, tensor trains.** `TensorTrain.zero(shape, rank)` with an acceptable rank is well-formed
with that shape and those ranks, and all its entries are zero. -/
theorem C60_tt (shape : List ℕ) (rank : RankArg) (r : List ℕ)
    (hr : processTTRank rank shape false = .ok r) :
    ∃ X : TT K, TT.zero shape rank = .ok X ∧ X.Valid ∧ X.shape = shape ∧ X.rank = r ∧
      ∀ i, X.toNumpy.get i = 0 := by
  have hl : r.length + 1 = shape.length := by
    simp only [processTTRank, Bool.false_eq_true, if_false] at hr
    split_ifs at hr with h
    simp only [Except.ok.injEq] at hr
    rw [← hr]
    exact of_not_not h
  obtain ⟨h1, h2, h3, h4, h5⟩ := zero_cores (K := K) r shape 1 hl
  have hv : (⟨List.zipWith (fun a b => ND.zeros [a.1, a.2, b]) ((1 :: r).zip shape) (r ++ [1])⟩ :
    TT K).Valid := ⟨h4, h1⟩
  refine ⟨_, by rw [TT.zero, hr], hv, h2, ?_, ?_⟩
  · show List.map _ (List.tail _) = r
    rw [List.map_tail, h3]; rfl
  · intro i
    rw [TT.toNumpy_get hv, ttEntry]
    match hc : List.zipWith (fun a b => (ND.zeros [a.1, a.2, b] : ND K)) ((1 :: r).zip shape)
      (r ++ [1]) with
    | [] => exact absurd hc h4
    | C :: Cs => exact ttVal_zero_core (h5 C (by rw [hc]; simp)) Cs i 0 0

example : processTTRank (.seq [2, 3]) [4, 5, 6] false = .ok [2, 3] := rfl

end

end Props
end TTS
