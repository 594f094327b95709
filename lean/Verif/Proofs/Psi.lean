import Verif.Proofs.SketchOwn
import Verif.Proofs.Matricize

/-! Omega and Psi of one tensor, from its left and right contractions. -/

namespace TTS

open Finset

variable {K : Type*}

section
variable [CommSemiring K]

/-- What the right contractions are, for a matrix with entries `R q b` acting on the modes
`k, k+1, ..`. -/
def IsContrR (X : Leaf K) (k r : ℕ) (R : List ℕ → ℕ → K) (M : ND K) : Prop :=
  match X with
  | .sparse X => M.shape = [r, X.nnz] ∧ ∀ (e : ℕ) (he : e < X.entries.length) (b : ℕ), b < r →
      M.get [b, e] = R (X.entries[e].1.drop k) b
  | .tt X => ∃ x, TTChain x (X.cores.drop k) 1 ∧ M.shape = [x, r] ∧ ∀ y b, y < x → b < r →
      M.get [y, b] = sumIdx (X.shape.drop k) fun q => ttVal (X.cores.drop k) q y 0 * R q b
  | .cp X => M.shape = [X.rank, r] ∧ ∀ i b, i < X.rank → b < r →
      M.get [i, b] = sumIdx (X.shape.drop k) fun q => cpProd (X.cores.drop k) q i * R q b
  | .dense X => M.shape = [r, (X.shape.drop k).prod] ∧ ∀ q b, InR (X.shape.drop k) q → b < r →
      M.get [b, ravel (X.shape.drop k) q] = R q b
  | .tucker X => M.shape = [(X.rank.drop k).prod, r] ∧ ∀ q b, InR (X.rank.drop k) q → b < r →
      M.get [ravel (X.rank.drop k) q, b]
        = sumIdx (X.shape.drop k) fun p => facProd (X.factors.drop k) q p * R p b

/-! ### matricization along leading modes -/

theorem range_append_rest (d k : ℕ) (hk : k ≤ d) :
    List.range k ++ (List.range d).filter (fun i => i ∉ List.range k) = List.range d := by
  obtain ⟨m, rfl⟩ := Nat.exists_eq_add_of_le hk
  rw [List.range_add, List.filter_append]
  have h1 : (List.range k).filter (fun i => i ∉ List.range k) = [] := by
    simp [List.filter_eq_nil_iff]
  rw [h1, List.nil_append]
  congr 1
  rw [List.filter_eq_self]
  intro a ha
  obtain ⟨b, _, rfl⟩ := List.mem_map.1 ha
  simp

theorem matricize_range_true (A : ND K) (k : ℕ) (hk : k ≤ A.shape.length) :
    A.matricize (List.range k) true = A.reshape [(A.shape.take k).prod, (A.shape.drop k).prod] := by
  unfold ND.matricize
  simp only [range_append_rest A.ndim k hk, ND.transpose_id, if_true, List.length_range]
  rfl

theorem matricize_range_false (A : ND K) (k : ℕ) (hk : k ≤ A.shape.length) :
    A.matricize (List.range k) false = A.reshape (A.shape.take k ++ [(A.shape.drop k).prod]) := by
  unfold ND.matricize
  simp only [range_append_rest A.ndim k hk, ND.transpose_id, List.length_range]
  rfl

theorem matricize_lead {A : ND K} {k : ℕ} (hk : k ≤ A.shape.length) {p q : List ℕ}
    (hp : InR (A.shape.take k) p) (hq : InR (A.shape.drop k) q) :
    (A.matricize (List.range k) true).get [ravel (A.shape.take k) p, ravel (A.shape.drop k) q]
      = A.get (p ++ q) := by
  rw [matricize_range_true A k hk]
  exact ND.reshape_mat (by simp) hp hq

/-! ### splitting sums -/

theorem sum_take_drop (sh : List ℕ) (k : ℕ) (F : List ℕ → K) :
    sumIdx (sh.take k) (fun p => sumIdx (sh.drop k) fun q => F (p ++ q)) = sumIdx sh F := by
  conv_rhs => rw [← List.take_append_drop k sh, sumIdx_append]

theorem sparse_sum (X : Sparse K) (hX : X.Valid) (g : List ℕ → K) :
    sumIdx X.shape (fun i => sparseEntry X i * g i) = (X.entries.map fun e => e.2 * g e.1).sum := by
  have e : ∀ i, sparseEntry X i * g i
      = (X.entries.map fun e => if i = e.1 then e.2 * g i else 0).sum := by
    intro i
    unfold sparseEntry
    rw [← List.sum_map_mul_right]
    congr 1
    refine List.map_congr_left fun e _ => ?_
    by_cases h : e.1 = i
    · simp [h]
    · simp [h, Ne.symm h]
  simp only [e]
  rw [sumIdx_list_sum]
  congr 1
  refine List.map_congr_left fun e he => ?_
  rw [sumIdx_ite_eq (hX e he) (fun i => e.2 * g i)]

theorem list_sum_range {α : Type*} (l : List α) (g : α → K) (z : α) :
    ∑ e ∈ range l.length, g (l.getD e z) = (l.map g).sum := by
  induction l with
  | nil => simp
  | cons a l ih =>
    rw [List.length_cons, sum_range_succ', List.map_cons, List.sum_cons, ← ih, add_comm]
    simp

/-! ### Omega -/

theorem omega_sparse {X : Sparse K} (hX : X.Valid) (hd : X.Distinct) {mu lr rr : ℕ}
    {L R : List ℕ → ℕ → K} {l r : ND K} (hl : IsContrL (.sparse X) (mu + 1) lr L l)
    (hr : IsContrR (.sparse X) (mu + 1) rr R r) :
    omegaLeaf (.sparse X) mu l r = ND.ofFn [lr, rr] fun i =>
      sumIdx (X.shape.take (mu + 1)) fun p => sumIdx (X.shape.drop (mu + 1)) fun q =>
        L p (i.getD 0 0) * X.toNumpy.get (p ++ q) * R q (i.getD 1 0) := by
  obtain ⟨hls, hlg⟩ := hl
  obtain ⟨hrs, hrg⟩ := hr
  have hms : (l.mulCols (X.entries.map Prod.snd)).shape = [lr, X.nnz] := by
    simp [ND.mulCols, ND.dim, hls]
  have hmg : ∀ a e, a < lr → e < X.nnz →
      (l.mulCols (X.entries.map Prod.snd)).get [a, e] = l.get [a, e] * (X.entries.map Prod.snd).getD e 0 := by
    intro a e ha he
    refine (ND.ofFn_get ?_).trans rfl
    simp [ND.dim, hls, ha, he]
  have hrT := ND.matT_shape hrs
  refine ND.ext' (ND.matmul_shape' hms hrT) fun i hi => ?_
  have hi' : InR [lr, rr] i := by rwa [show (omegaLeaf (.sparse X) mu l r).shape = [lr, rr] from ND.matmul_shape' hms hrT] at hi
  match i, hi' with
  | [a, b], hi' =>
    obtain ⟨ha, hb, _⟩ := hi'
    rw [ND.ofFn_get (show InR [lr, rr] [a, b] from ⟨ha, hb, trivial⟩)]
    show (ND.matmul _ _).get [a, b] = _
    rw [ND.matmul_get hms hrT]
    have e1 : ∀ p q, L p ([a, b].getD 0 0) * X.toNumpy.get (p ++ q) * R q ([a, b].getD 1 0)
        = L p a * X.toNumpy.get (p ++ q) * R q b := fun _ _ => rfl
    simp only [e1]
    have e2 : (sumIdx (X.shape.take (mu + 1)) fun p => sumIdx (X.shape.drop (mu + 1)) fun q =>
        L p a * X.toNumpy.get (p ++ q) * R q b)
        = sumIdx X.shape fun i => sparseEntry X i * (L (i.take (mu + 1)) a * R (i.drop (mu + 1)) b) := by
      rw [← sum_take_drop X.shape (mu + 1)]
      refine sumIdx_congr fun p hp => sumIdx_congr fun q hq => ?_
      rw [X.toNumpy_get hX hd]
      by_cases hk : mu + 1 ≤ X.shape.length
      · have hl : p.length = mu + 1 := by rw [hp.length]; simp [hk]
        rw [← hl, List.take_left, List.drop_left]; ring
      · have hq' : q = [] := by have := hq.length; rw [List.drop_eq_nil_of_le (by omega)] at this; simpa using this
        subst hq'
        have hl : p.length ≤ mu + 1 := by rw [hp.length]; simp
        rw [List.append_nil, List.take_of_length_le hl, List.drop_eq_nil_of_le hl]; ring
    rw [e2, sparse_sum X hX, ← list_sum_range _ _ ([], 0)]
    refine sum_congr rfl fun e he => ?_
    have he' : e < X.entries.length := by simpa [Sparse.nnz] using he
    rw [hmg a e ha he', ND.matT_get hrs, hlg e he' a ha, hrg e he' b hb,
      getD_map_lt _ _ e he' ([], 0), getD_eq he']
    ring

theorem omega_tt {X : TT K} (hX : X.Valid) {mu lr rr : ℕ}
    {L R : List ℕ → ℕ → K} {l r : ND K} (hl : IsContrL (.tt X) (mu + 1) lr L l)
    (hr : IsContrR (.tt X) (mu + 1) rr R r) :
    omegaLeaf (.tt X) mu l r = ND.ofFn [lr, rr] fun i =>
      sumIdx (X.shape.take (mu + 1)) fun p => sumIdx (X.shape.drop (mu + 1)) fun q =>
        L p (i.getD 0 0) * X.toNumpy.get (p ++ q) * R q (i.getD 1 0) := by
  obtain ⟨x, hlc, hls, hlg⟩ := hl
  obtain ⟨x', hrc, hrs, hrg⟩ := hr
  have hlen : X.cores.length = X.shape.length := by simp [TT.shape]
  have hxx : x = x' := by
    obtain ⟨s, h1, h2⟩ := (by have := hX.2; rwa [← List.take_append_drop (mu + 1) X.cores] at this :
      TTChain 1 (X.cores.take (mu + 1) ++ X.cores.drop (mu + 1)) 1).split
    have hne : X.cores.take (mu + 1) ≠ [] := by
      intro h; have := congrArg List.length h; simp at this; exact hX.1 this
    have e1 := hlc.unique hne h1
    by_cases hdn : X.cores.drop (mu + 1) = []
    · rw [hdn] at hrc h2
      rw [e1]; exact h2.trans hrc.symm
    · obtain ⟨C, Cs, hC⟩ := List.exists_cons_of_ne_nil hdn
      rw [hC] at hrc h2
      obtain ⟨n, t, h3, _⟩ := hrc
      obtain ⟨n', t', h4, _⟩ := h2
      rw [h3] at h4
      simp at h4
      omega
  subst hxx
  have hlT := ND.matT_shape hls
  refine ND.ext' (ND.matmul_shape' hlT hrs) fun i hi => ?_
  have hi' : InR [lr, rr] i := by rwa [show (omegaLeaf (.tt X) mu l r).shape = [lr, rr] from ND.matmul_shape' hlT hrs] at hi
  match i, hi' with
  | [a, b], hi' =>
    obtain ⟨ha, hb, _⟩ := hi'
    rw [ND.ofFn_get (show InR [lr, rr] [a, b] from ⟨ha, hb, trivial⟩)]
    show (ND.matmul _ _).get [a, b] = _
    rw [ND.matmul_get hlT hrs]
    have e : (sumIdx (X.shape.take (mu + 1)) fun p => sumIdx (X.shape.drop (mu + 1)) fun q =>
        L p ([a, b].getD 0 0) * X.toNumpy.get (p ++ q) * R q ([a, b].getD 1 0))
        = sumIdx (X.shape.take (mu + 1)) fun p => sumIdx (X.shape.drop (mu + 1)) fun q =>
          ∑ y ∈ range x, (ttVal (X.cores.take (mu + 1)) p 0 y * L p a)
            * (ttVal (X.cores.drop (mu + 1)) q y 0 * R q b) := by
      refine sumIdx_congr fun p hp => sumIdx_congr fun q hq => ?_
      rw [TT.toNumpy_get hX]
      show L p a * ttVal X.cores (p ++ q) 0 0 * R q b = _
      conv_lhs => rw [← List.take_append_drop (mu + 1) X.cores]
      rw [ttVal_append hlc _ _ _ (by rw [hp.length]; simp [hlen]) _ _ (by omega), mul_sum, sum_mul]
      refine sum_congr rfl fun y _ => by ring
    rw [e]
    simp only [sumIdx_sum]
    refine sum_congr rfl fun y hy => ?_
    rw [ND.matT_get hls, hlg y a ha, hrg y b (by simpa using hy) hb, sumIdx_mul]
    refine sumIdx_congr fun p _ => ?_
    rw [mul_sumIdx]

theorem CP.Valid.chain {X : CP K} (hX : X.Valid) : CPChain X.rank X.cores := hX.2

theorem omega_cp {X : CP K} (hX : X.Valid) {mu lr rr : ℕ}
    {L R : List ℕ → ℕ → K} {l r : ND K} (hl : IsContrL (.cp X) (mu + 1) lr L l)
    (hr : IsContrR (.cp X) (mu + 1) rr R r) :
    omegaLeaf (.cp X) mu l r = ND.ofFn [lr, rr] fun i =>
      sumIdx (X.shape.take (mu + 1)) fun p => sumIdx (X.shape.drop (mu + 1)) fun q =>
        L p (i.getD 0 0) * X.toNumpy.get (p ++ q) * R q (i.getD 1 0) := by
  obtain ⟨hls, hlg⟩ := hl
  obtain ⟨hrs, hrg⟩ := hr
  have hlen : X.cores.length = X.shape.length := by simp [CP.shape]
  have hlT := ND.matT_shape hls
  refine ND.ext' (ND.matmul_shape' hlT hrs) fun i hi => ?_
  have hi' : InR [lr, rr] i := by rwa [show (omegaLeaf (.cp X) mu l r).shape = [lr, rr] from ND.matmul_shape' hlT hrs] at hi
  match i, hi' with
  | [a, b], hi' =>
    obtain ⟨ha, hb, _⟩ := hi'
    rw [ND.ofFn_get (show InR [lr, rr] [a, b] from ⟨ha, hb, trivial⟩)]
    show (ND.matmul _ _).get [a, b] = _
    rw [ND.matmul_get hlT hrs]
    have e : (sumIdx (X.shape.take (mu + 1)) fun p => sumIdx (X.shape.drop (mu + 1)) fun q =>
        L p ([a, b].getD 0 0) * X.toNumpy.get (p ++ q) * R q ([a, b].getD 1 0))
        = sumIdx (X.shape.take (mu + 1)) fun p => sumIdx (X.shape.drop (mu + 1)) fun q =>
          ∑ y ∈ range X.rank, (cpProd (X.cores.take (mu + 1)) p y * L p a)
            * (cpProd (X.cores.drop (mu + 1)) q y * R q b) := by
      refine sumIdx_congr fun p hp => sumIdx_congr fun q hq => ?_
      rw [CP.toNumpy_get hX]
      show L p a * (∑ y ∈ range X.rank, cpProd X.cores (p ++ q) y) * R q b = _
      conv_lhs => rw [← List.take_append_drop (mu + 1) X.cores]
      rw [mul_sum, sum_mul]
      refine sum_congr rfl fun y _ => ?_
      rw [cpProd_append _ _ _ _ _ (by rw [hp.length]; simp [hlen])]; ring
    rw [e]
    simp only [sumIdx_sum]
    refine sum_congr rfl fun y hy => ?_
    have hy' : y < X.rank := by simpa using hy
    rw [ND.matT_get hls, hlg y a hy' ha, hrg y b hy' hb, sumIdx_mul]
    refine sumIdx_congr fun p _ => ?_
    rw [mul_sumIdx]

theorem omega_dense {X : ND K} {mu lr rr : ℕ} (hmu : mu + 1 ≤ X.shape.length)
    {L R : List ℕ → ℕ → K} {l r : ND K} (hl : IsContrL (.dense X) (mu + 1) lr L l)
    (hr : IsContrR (.dense X) (mu + 1) rr R r) :
    omegaLeaf (.dense X) mu l r = ND.ofFn [lr, rr] fun i =>
      sumIdx (X.shape.take (mu + 1)) fun p => sumIdx (X.shape.drop (mu + 1)) fun q =>
        L p (i.getD 0 0) * X.get (p ++ q) * R q (i.getD 1 0) := by
  obtain ⟨hls, hlg⟩ := hl
  obtain ⟨hrs, hrg⟩ := hr
  have hrT := ND.matT_shape hrs
  have hXs : (X.matricize (List.range (mu + 1)) true).shape
      = [(X.shape.take (mu + 1)).prod, (X.shape.drop (mu + 1)).prod] := by
    rw [matricize_range_true _ _ hmu, ND.reshape_shape]
  have hlX := ND.matmul_shape' hls hXs
  refine ND.ext' (ND.matmul_shape' hlX hrT) fun i hi => ?_
  have hi' : InR [lr, rr] i := by rwa [show (omegaLeaf (.dense X) mu l r).shape = [lr, rr] from ND.matmul_shape' hlX hrT] at hi
  match i, hi' with
  | [a, b], hi' =>
    obtain ⟨ha, hb, _⟩ := hi'
    rw [ND.ofFn_get (show InR [lr, rr] [a, b] from ⟨ha, hb, trivial⟩)]
    show (ND.matmul _ _).get [a, b] = _
    rw [ND.matmul_get hlX hrT, ← sum_ravel, sumIdx_comm]
    refine sumIdx_congr fun q hq => ?_
    rw [ND.matmul_get hls hXs, ← sum_ravel, sumIdx_mul]
    refine sumIdx_congr fun p hp => ?_
    rw [hlg p a hp ha, matricize_lead hmu hp hq, ND.matT_get hrs, hrg q b hq hb]
    rfl

theorem omega_tucker {X : Tucker K} (hX : X.Valid) {mu lr rr : ℕ} (hmu : mu + 1 ≤ X.shape.length)
    {L R : List ℕ → ℕ → K} {l r : ND K} (hl : IsContrL (.tucker X) (mu + 1) lr L l)
    (hr : IsContrR (.tucker X) (mu + 1) rr R r) :
    omegaLeaf (.tucker X) mu l r = ND.ofFn [lr, rr] fun i =>
      sumIdx (X.shape.take (mu + 1)) fun p => sumIdx (X.shape.drop (mu + 1)) fun q =>
        L p (i.getD 0 0) * X.toNumpy.get (p ++ q) * R q (i.getD 1 0) := by
  obtain ⟨hls, hlg⟩ := hl
  obtain ⟨hrs, hrg⟩ := hr
  have hlT := ND.matT_shape hls
  have hcl : mu + 1 ≤ X.core.shape.length := by rw [hX.2]; simpa [Tucker.rank, Tucker.shape] using hmu
  have hXs : (X.core.matricize (List.range (mu + 1)) true).shape
      = [(X.rank.take (mu + 1)).prod, (X.rank.drop (mu + 1)).prod] := by
    rw [matricize_range_true _ _ hcl, ND.reshape_shape, hX.2]
  have hlX := ND.matmul_shape' hlT hXs
  refine ND.ext' (ND.matmul_shape' hlX hrs) fun i hi => ?_
  have hi' : InR [lr, rr] i := by rwa [show (omegaLeaf (.tucker X) mu l r).shape = [lr, rr] from ND.matmul_shape' hlX hrs] at hi
  match i, hi' with
  | [a, b], hi' =>
    obtain ⟨ha, hb, _⟩ := hi'
    rw [ND.ofFn_get (show InR [lr, rr] [a, b] from ⟨ha, hb, trivial⟩)]
    show (ND.matmul _ _).get [a, b] = _
    have e : (sumIdx (X.shape.take (mu + 1)) fun p => sumIdx (X.shape.drop (mu + 1)) fun q =>
        L p ([a, b].getD 0 0) * X.toNumpy.get (p ++ q) * R q ([a, b].getD 1 0))
        = sumIdx (X.shape.take (mu + 1)) fun p => sumIdx (X.shape.drop (mu + 1)) fun q =>
          sumIdx (X.rank.take (mu + 1)) fun s => sumIdx (X.rank.drop (mu + 1)) fun t =>
            (facProd (X.factors.take (mu + 1)) s p * L p a) * X.core.get (s ++ t)
            * (facProd (X.factors.drop (mu + 1)) t q * R q b) := by
      refine sumIdx_congr fun p hp => sumIdx_congr fun q hq => ?_
      rw [Tucker.toNumpy_get hX]
      show L p a * sumIdx X.rank (fun s => X.core.get s * facProd X.factors s (p ++ q)) * R q b = _
      rw [← sum_take_drop X.rank (mu + 1), mul_sumIdx, sumIdx_mul]
      refine sumIdx_congr fun s hs => ?_
      rw [mul_sumIdx, sumIdx_mul]
      refine sumIdx_congr fun t ht => ?_
      conv_lhs => rw [← List.take_append_drop (mu + 1) X.factors]
      rw [facProd_append _ _ _ _ _ _ (by rw [hs.length]; simp [Tucker.rank])
        (by rw [hp.length]; simp [Tucker.shape])]
      ring
    rw [e, ND.matmul_get hlX hrs, ← sum_ravel]
    have e2 : ∀ t, InR (X.rank.drop (mu + 1)) t →
        (l.matT.matmul (X.core.matricize (List.range (mu + 1)) true)).get
            [a, ravel (X.rank.drop (mu + 1)) t] * r.get [ravel (X.rank.drop (mu + 1)) t, b]
          = sumIdx (X.rank.take (mu + 1)) fun s => sumIdx (X.shape.take (mu + 1)) fun p =>
            sumIdx (X.shape.drop (mu + 1)) fun q =>
            (facProd (X.factors.take (mu + 1)) s p * L p a) * X.core.get (s ++ t)
            * (facProd (X.factors.drop (mu + 1)) t q * R q b) := by
      intro t ht
      rw [ND.matmul_get hlT hXs, ← sum_ravel, sumIdx_mul]
      refine sumIdx_congr fun s hs => ?_
      have hm := matricize_lead (A := X.core) hcl (p := s) (q := t) (by rwa [hX.2]) (by rwa [hX.2])
      rw [hX.2] at hm
      rw [ND.matT_get hls, hlg s a hs ha, hm, hrg t b ht hb, sumIdx_mul, sumIdx_mul]
      refine sumIdx_congr fun p _ => ?_
      rw [mul_sumIdx]
    rw [sumIdx_congr e2]
    -- reorder
    rw [sumIdx_comm]
    have e3 : ∀ (A B C D : List ℕ) (F : List ℕ → List ℕ → List ℕ → List ℕ → K),
        sumIdx A (fun s => sumIdx B fun t => sumIdx C fun p => sumIdx D fun q => F s t p q)
          = sumIdx C (fun p => sumIdx D fun q => sumIdx A fun s => sumIdx B fun t => F s t p q) := by
      intro A B C D F
      calc _ = sumIdx A (fun s => sumIdx C fun p => sumIdx B fun t => sumIdx D fun q => F s t p q) :=
            sumIdx_congr fun s _ => sumIdx_comm _ _ _
        _ = sumIdx C (fun p => sumIdx A fun s => sumIdx B fun t => sumIdx D fun q => F s t p q) :=
            sumIdx_comm _ _ _
        _ = _ := by
            refine sumIdx_congr fun p _ => ?_
            calc _ = sumIdx A (fun s => sumIdx D fun q => sumIdx B fun t => F s t p q) :=
                  sumIdx_congr fun s _ => sumIdx_comm _ _ _
              _ = _ := sumIdx_comm _ _ _
    exact e3 _ _ _ _ _

/-! ### Psi -/

/-- `Psi` with both contractions given, for one matrix on each side. -/
def psiVal (sh : List ℕ) (f : List ℕ → K) (L R : List ℕ → ℕ → K) (mu a j b : ℕ) : K :=
  sumIdx (sh.take mu) fun p => sumIdx (sh.drop (mu + 1)) fun q => L p a * f (p ++ j :: q) * R q b

def psiArr (sh : List ℕ) (f : List ℕ → K) (L R : List ℕ → ℕ → K) (lr rr mu : ℕ) : ND K :=
  ND.ofFn [lr, sh.getD mu 0, rr] fun i => psiVal sh f L R mu (i.getD 0 0) (i.getD 1 0) (i.getD 2 0)

theorem eq_psiArr {A : ND K} {sh : List ℕ} {f : List ℕ → K} {L R : List ℕ → ℕ → K} {lr rr mu : ℕ}
    (hs : A.shape = [lr, sh.getD mu 0, rr])
    (hg : ∀ a j b, a < lr → j < sh.getD mu 0 → b < rr → A.get [a, j, b] = psiVal sh f L R mu a j b) :
    A = psiArr sh f L R lr rr mu := by
  refine ND.ext' hs fun i hi => ?_
  rw [hs] at hi
  match i, hi with
  | [a, j, b], hi =>
    unfold psiArr
    rw [ND.ofFn_get hi]
    exact hg a j b hi.1 hi.2.1 hi.2.2.1

/-- the three parts of a well-formed tensor train around core `mu` -/
theorem TT.around {X : TT K} {mu x z : ℕ} {C : ND K} (hmu : mu < X.cores.length)
    (hC : C = X.cores.getD mu (ND.zeros [])) (hv : X.Valid)
    (hlc : TTChain 1 (X.cores.take mu) x) (hrc : TTChain z (X.cores.drop (mu + 1)) 1) :
    C.shape = [x, X.shape.getD mu 0, z] := by
  obtain ⟨r, hr, h0, h1⟩ := hv.cores
  have h2 := hr mu hmu
  have h3 := hr.chain mu hmu.le
  rw [h0] at h3
  have hx : x = r mu := by
    by_cases hm : mu = 0
    · subst hm
      simp [TTChain] at hlc; omega
    · exact hlc.unique (by intro h; have := congrArg List.length h; simp at this; rcases this with h | h; exacts [hm h, hv.1 h]) h3
  have hz : z = r (mu + 1) := by
    by_cases hm : mu + 1 = X.cores.length
    · rw [List.drop_eq_nil_of_le (by omega)] at hrc
      rw [hm, h1]; exact hrc
    · rw [drop_eq_getD_cons (by omega) (ND.zeros [])] at hrc
      obtain ⟨n, t, h4, _⟩ := hrc
      have h5 := hr (mu + 1) (by omega)
      rw [h4] at h5; simp at h5; omega
  rw [hC, h2, hx, hz]

theorem psi_tt_full {X : TT K} (hX : X.Valid) {mu lr rr : ℕ} (hmu : mu < X.shape.length)
    {L R : List ℕ → ℕ → K} {l r : ND K} (hl : IsContrL (.tt X) mu lr L l)
    (hr : IsContrR (.tt X) (mu + 1) rr R r) :
    ND.es_ij_jkl_lm_ikm l.matT (X.cores.getD mu (ND.zeros [])) r
      = psiArr X.shape X.toNumpy.get L R lr rr mu := by
  obtain ⟨x, hlc, hls, hlg⟩ := hl
  obtain ⟨z, hrc, hrs, hrg⟩ := hr
  have hlen : X.cores.length = X.shape.length := by simp [TT.shape]
  have hC := TT.around (by omega) rfl hX hlc hrc
  have hlT := ND.matT_shape hls
  refine eq_psiArr (ND.es_ij_jkl_lm_ikm_shape hlT hC hrs) fun a j b ha hj hb => ?_
  rw [ND.es_ij_jkl_lm_ikm_get hlT hC hrs]
  unfold psiVal
  have e : (sumIdx (X.shape.take mu) fun p => sumIdx (X.shape.drop (mu + 1)) fun q =>
      L p a * X.toNumpy.get (p ++ j :: q) * R q b)
      = sumIdx (X.shape.take mu) fun p => sumIdx (X.shape.drop (mu + 1)) fun q =>
        ∑ y ∈ range x, ∑ w ∈ range z, (ttVal (X.cores.take mu) p 0 y * L p a)
          * ((X.cores.getD mu (ND.zeros [])).get [y, j, w]
            * (ttVal (X.cores.drop (mu + 1)) q w 0 * R q b)) := by
    refine sumIdx_congr fun p hp => sumIdx_congr fun q hq => ?_
    rw [TT.toNumpy_get hX]
    show L p a * ttVal X.cores (p ++ j :: q) 0 0 * R q b = _
    conv_lhs => rw [← List.take_append_drop mu X.cores, drop_eq_getD_cons (l := X.cores) (k := mu) (by omega) (ND.zeros [])]
    rw [ttVal_append hlc _ _ _ (by rw [hp.length]; simp [hlen]) _ _ (by omega), mul_sum, sum_mul]
    refine sum_congr rfl fun y _ => ?_
    rw [ttVal_cons hC, mul_sum, mul_sum, sum_mul]
    refine sum_congr rfl fun w _ => by ring
  rw [e]
  simp only [sumIdx_sum]
  refine sum_congr rfl fun y hy => sum_congr rfl fun w hw => ?_
  rw [ND.matT_get hls, hlg y a ha, hrg w b (by simpa using hw) hb, sumIdx_mul]
  refine sumIdx_congr fun p _ => ?_
  rw [mul_sumIdx, mul_sumIdx]

theorem CP.Valid.core_shape {X : CP K} (hX : X.Valid) {k : ℕ} (hk : k < X.cores.length) :
    (X.cores.getD k (ND.zeros [])).shape = [X.shape.getD k 0, X.rank] := by
  unfold CP.shape
  rw [getD_map_lt _ _ k hk (ND.zeros []), getD_eq hk]
  obtain ⟨n, hn⟩ := hX.2 _ (List.getElem_mem hk)
  rw [ND.dim, hn]; rfl

theorem psi_cp_full {X : CP K} (hX : X.Valid) {mu lr rr : ℕ} (hmu : mu < X.shape.length)
    {L R : List ℕ → ℕ → K} {l r : ND K} (hl : IsContrL (.cp X) mu lr L l)
    (hr : IsContrR (.cp X) (mu + 1) rr R r) :
    ND.es_ij_kj_jm_ikm l.matT (X.cores.getD mu (ND.zeros [])) r
      = psiArr X.shape X.toNumpy.get L R lr rr mu := by
  obtain ⟨hls, hlg⟩ := hl
  obtain ⟨hrs, hrg⟩ := hr
  have hlen : X.cores.length = X.shape.length := by simp [CP.shape]
  have hC := hX.core_shape (k := mu) (by omega)
  have hlT := ND.matT_shape hls
  refine eq_psiArr (ND.es_ij_kj_jm_ikm_shape hlT hC hrs) fun a j b ha hj hb => ?_
  rw [ND.es_ij_kj_jm_ikm_get hlT hC hrs]
  unfold psiVal
  have e : (sumIdx (X.shape.take mu) fun p => sumIdx (X.shape.drop (mu + 1)) fun q =>
      L p a * X.toNumpy.get (p ++ j :: q) * R q b)
      = sumIdx (X.shape.take mu) fun p => sumIdx (X.shape.drop (mu + 1)) fun q =>
        ∑ y ∈ range X.rank, (cpProd (X.cores.take mu) p y * L p a)
          * ((X.cores.getD mu (ND.zeros [])).get [j, y]
            * (cpProd (X.cores.drop (mu + 1)) q y * R q b)) := by
    refine sumIdx_congr fun p hp => sumIdx_congr fun q hq => ?_
    rw [CP.toNumpy_get hX]
    show L p a * (∑ y ∈ range X.rank, cpProd X.cores (p ++ j :: q) y) * R q b = _
    rw [mul_sum, sum_mul]
    refine sum_congr rfl fun y _ => ?_
    conv_lhs => rw [← List.take_append_drop mu X.cores, drop_eq_getD_cons (l := X.cores) (k := mu) (by omega) (ND.zeros [])]
    rw [cpProd_append _ _ _ _ _ (by rw [hp.length]; simp [hlen]), cpProd]; ring
  rw [e]
  simp only [sumIdx_sum]
  refine sum_congr rfl fun y hy => ?_
  have hy' : y < X.rank := by simpa using hy
  rw [ND.matT_get hls, hlg y a hy' ha, hrg y b hy' hb, sumIdx_mul]
  refine sumIdx_congr fun p _ => ?_
  rw [mul_sumIdx, mul_sumIdx]

theorem shape_three (sh : List ℕ) {mu : ℕ} (hmu : mu < sh.length) :
    sh = sh.take mu ++ sh.getD mu 0 :: sh.drop (mu + 1) := by
  rw [← drop_eq_getD_cons hmu, List.take_append_drop]

/-- The order-3 array the dense code makes of `X`. -/
def dense3 (X : ND K) (mu : ℕ) : ND K :=
  X.reshape [(X.shape.take mu).prod, X.shape.getD mu 0, (X.shape.drop (mu + 1)).prod]

theorem dense3_get {X : ND K} {mu : ℕ} (hmu : mu < X.shape.length) {p q : List ℕ} {j : ℕ}
    (hp : InR (X.shape.take mu) p) (hq : InR (X.shape.drop (mu + 1)) q) :
    (dense3 X mu).get [ravel (X.shape.take mu) p, j, ravel (X.shape.drop (mu + 1)) q]
      = X.get (p ++ j :: q) := by
  have h1 := ravel_lt hp
  have h2 := ravel_lt hq
  have e := shape_three X.shape hmu
  unfold dense3
  refine ND.reshape_get_iff ?_ ?_
  · rw [show InR X.shape (p ++ j :: q) ↔ InR (X.shape.take mu ++ X.shape.getD mu 0 :: X.shape.drop (mu + 1))
      (p ++ j :: q) by rw [← e], inR_append hp.length]
    simp only [inR_cons_cons, inR_nil_nil, and_true]
    tauto
  · intro _
    rw [show ravel X.shape (p ++ j :: q) = ravel (X.shape.take mu ++ X.shape.getD mu 0 :: X.shape.drop (mu + 1))
      (p ++ j :: q) by rw [← e], ravel_append hp.length]
    simp

theorem matricize3 (X : ND K) {mu : ℕ} (hmu : mu < X.shape.length) :
    (X.matricize (List.range (mu + 1)) false).reshape
      [((X.matricize (List.range (mu + 1)) false).shape.take mu).prod,
        (X.matricize (List.range (mu + 1)) false).dim mu,
        (X.matricize (List.range (mu + 1)) false).dim (mu + 1)] = dense3 X mu := by
  have h1 := matricize_range_false X (mu + 1) (by omega)
  have hl : (X.shape.take (mu + 1)).length = mu + 1 := by simp; omega
  have hs : (X.matricize (List.range (mu + 1)) false).shape
      = X.shape.take (mu + 1) ++ [(X.shape.drop (mu + 1)).prod] := by rw [h1, ND.reshape_shape]
  have e1 : (X.matricize (List.range (mu + 1)) false).shape.take mu = X.shape.take mu := by
    rw [hs, List.take_append_of_le_length (by omega), List.take_take]; congr 1; omega
  have e2 : (X.matricize (List.range (mu + 1)) false).dim mu = X.shape.getD mu 0 := by
    unfold ND.dim
    rw [hs, getD_eq (by simp; omega), getD_eq hmu, List.getElem_append_left (by omega)]
    simp
  have e3 : (X.matricize (List.range (mu + 1)) false).dim (mu + 1) = (X.shape.drop (mu + 1)).prod := by
    unfold ND.dim
    rw [hs, getD_eq (by simp; omega), List.getElem_append_right (by omega)]
    simp
  rw [e1, e2, e3, h1]
  have hp : X.shape.prod = (X.shape.take mu).prod * (X.shape.getD mu 0 * (X.shape.drop (mu + 1)).prod) := by
    conv_lhs => rw [shape_three X.shape hmu]
    simp
  refine ND.reshape_reshape ?_ ?_
  · rw [List.prod_append, hp, take_succ_getD hmu 0]; simp [mul_assoc]
  · simp [hp]

theorem psi_dense_full {X : ND K} {mu lr rr : ℕ} (hmu : mu < X.shape.length)
    {L R : List ℕ → ℕ → K} {l r : ND K} (hl : IsContrL (.dense X) mu lr L l)
    (hr : IsContrR (.dense X) (mu + 1) rr R r) :
    ND.es_ij_jkl_ml_ikm l (dense3 X mu) r = psiArr X.shape X.get L R lr rr mu := by
  obtain ⟨hls, hlg⟩ := hl
  obtain ⟨hrs, hrg⟩ := hr
  have hC : (dense3 X mu).shape = _ := ND.reshape_shape ..
  refine eq_psiArr (ND.es_ij_jkl_ml_ikm_shape hls hC hrs) fun a j b ha hj hb => ?_
  rw [ND.es_ij_jkl_ml_ikm_get hls hC hrs]
  unfold psiVal
  rw [← sum_ravel]
  refine sumIdx_congr fun p hp => ?_
  rw [← sum_ravel]
  refine sumIdx_congr fun q hq => ?_
  rw [hlg p a hp ha, dense3_get hmu hp hq, hrg q b hq hb]
  ring

theorem Tucker.Valid.factor_shape {X : Tucker K} (hX : X.Valid) {k : ℕ} (hk : k < X.factors.length) :
    (X.factors.getD k (ND.zeros [])).shape = [X.rank.getD k 0, X.shape.getD k 0] := by
  unfold Tucker.shape Tucker.rank
  rw [getD_map_lt _ _ k hk (ND.zeros []), getD_map_lt _ _ k hk (ND.zeros []), getD_eq hk]
  obtain ⟨s, n, hn⟩ := hX.1 _ (List.getElem_mem hk)
  rw [ND.dim, ND.dim, hn]; rfl

theorem psi_tucker_full {X : Tucker K} (hX : X.Valid) {mu lr rr : ℕ} (hmu : mu < X.shape.length)
    {L R : List ℕ → ℕ → K} {l r : ND K} (hl : IsContrL (.tucker X) mu lr L l)
    (hr : IsContrR (.tucker X) (mu + 1) rr R r) :
    ND.es_ijk_jl_ilk (ND.es_ij_jkl_lm_ikm l.matT (dense3 X.core mu) r)
      (X.factors.getD mu (ND.zeros []))
      = psiArr X.shape X.toNumpy.get L R lr rr mu := by
  obtain ⟨hls, hlg⟩ := hl
  obtain ⟨hrs, hrg⟩ := hr
  have hfl : X.factors.length = X.shape.length := by simp [Tucker.shape]
  have hrl : X.rank.length = X.shape.length := by simp [Tucker.rank, Tucker.shape]
  have hC : (dense3 X.core mu).shape
      = [(X.rank.take mu).prod, X.rank.getD mu 0, (X.rank.drop (mu + 1)).prod] := by
    unfold dense3; rw [ND.reshape_shape, hX.2]
  have hCg : ∀ s t k, InR (X.rank.take mu) s → InR (X.rank.drop (mu + 1)) t →
      (dense3 X.core mu).get [ravel (X.rank.take mu) s, k, ravel (X.rank.drop (mu + 1)) t]
        = X.core.get (s ++ k :: t) := by
    intro s t k hs ht
    have := dense3_get (X := X.core) (mu := mu) (p := s) (q := t) (j := k) (by rw [hX.2]; omega)
      (by rwa [hX.2]) (by rwa [hX.2])
    rwa [hX.2] at this
  have hlT := ND.matT_shape hls
  have hE := ND.es_ij_jkl_lm_ikm_shape hlT hC hrs
  have hF := hX.factor_shape (k := mu) (by omega)
  refine eq_psiArr (ND.es_ijk_jl_ilk_shape hE hF) fun a j b ha hj hb => ?_
  rw [ND.es_ijk_jl_ilk_get hE hF]
  unfold psiVal
  have e : (sumIdx (X.shape.take mu) fun p => sumIdx (X.shape.drop (mu + 1)) fun q =>
      L p a * X.toNumpy.get (p ++ j :: q) * R q b)
      = sumIdx (X.shape.take mu) fun p => sumIdx (X.shape.drop (mu + 1)) fun q =>
        ∑ k ∈ range (X.rank.getD mu 0),
        sumIdx (X.rank.take mu) fun s => sumIdx (X.rank.drop (mu + 1)) fun t =>
          (facProd (X.factors.take mu) s p * L p a) * (X.core.get (s ++ k :: t)
          * (facProd (X.factors.drop (mu + 1)) t q * R q b))
          * (X.factors.getD mu (ND.zeros [])).get [k, j] := by
    refine sumIdx_congr fun p hp => sumIdx_congr fun q hq => ?_
    rw [Tucker.toNumpy_get hX]
    show L p a * sumIdx X.rank (fun s => X.core.get s * facProd X.factors s (p ++ j :: q)) * R q b = _
    conv_lhs => rw [shape_three X.rank (mu := mu) (by omega)]
    rw [sumIdx_append, mul_sumIdx, sumIdx_mul]
    simp only [sumIdx_cons]
    rw [← sumIdx_sum]
    refine sumIdx_congr fun s hs => ?_
    rw [mul_sum, sum_mul]
    refine sum_congr rfl fun k _ => ?_
    rw [mul_sumIdx, sumIdx_mul]
    refine sumIdx_congr fun t ht => ?_
    conv_lhs => rw [← List.take_append_drop mu X.factors, drop_eq_getD_cons (l := X.factors) (k := mu) (by omega) (ND.zeros [])]
    rw [facProd_append _ _ _ _ _ _ (by rw [hs.length]; simp [Tucker.rank])
      (by rw [hp.length]; simp [Tucker.shape]), facProd]
    ring
  rw [e]
  simp only [sumIdx_sum]
  refine sum_congr rfl fun k hk => ?_
  rw [ND.es_ij_jkl_lm_ikm_get hlT hC hrs, ← sum_ravel, sumIdx_mul]
  have e2 : ∀ s, InR (X.rank.take mu) s → (∑ w ∈ range (X.rank.drop (mu + 1)).prod,
        l.matT.get [a, ravel (X.rank.take mu) s] * ((dense3 X.core mu).get [ravel (X.rank.take mu) s, k, w]
          * r.get [w, b])) * (X.factors.getD mu (ND.zeros [])).get [k, j]
      = sumIdx (X.rank.drop (mu + 1)) fun t => sumIdx (X.shape.take mu) fun p =>
          sumIdx (X.shape.drop (mu + 1)) fun q =>
          (facProd (X.factors.take mu) s p * L p a) * (X.core.get (s ++ k :: t)
          * (facProd (X.factors.drop (mu + 1)) t q * R q b))
          * (X.factors.getD mu (ND.zeros [])).get [k, j] := by
    intro s hs
    rw [← sum_ravel, sumIdx_mul]
    refine sumIdx_congr fun t ht => ?_
    rw [ND.matT_get hls, hlg s a hs ha, hCg s t k hs ht, hrg t b ht hb, sumIdx_mul, sumIdx_mul]
    refine sumIdx_congr fun p _ => ?_
    rw [mul_sumIdx, mul_sumIdx, sumIdx_mul]
  rw [sumIdx_congr e2]
  have e3 : ∀ (A B C D : List ℕ) (F : List ℕ → List ℕ → List ℕ → List ℕ → K),
      sumIdx A (fun s => sumIdx B fun t => sumIdx C fun p => sumIdx D fun q => F s t p q)
        = sumIdx C (fun p => sumIdx D fun q => sumIdx A fun s => sumIdx B fun t => F s t p q) := by
    intro A B C D F
    calc _ = sumIdx A (fun s => sumIdx C fun p => sumIdx B fun t => sumIdx D fun q => F s t p q) :=
          sumIdx_congr fun s _ => sumIdx_comm _ _ _
      _ = sumIdx C (fun p => sumIdx A fun s => sumIdx B fun t => sumIdx D fun q => F s t p q) :=
          sumIdx_comm _ _ _
      _ = _ := by
          refine sumIdx_congr fun p _ => ?_
          calc _ = sumIdx A (fun s => sumIdx D fun q => sumIdx B fun t => F s t p q) :=
                sumIdx_congr fun s _ => sumIdx_comm _ _ _
            _ = _ := sumIdx_comm _ _ _
  exact e3 _ _ _ _ _

/-- sum over the stored entries whose index has `j` in position `mu` -/
theorem sparse_slice_sum (X : Sparse K) (hX : X.Valid) {mu : ℕ} (hmu : mu < X.shape.length) (j : ℕ)
    (hj : j < X.shape.getD mu 0) (g : List ℕ → List ℕ → K) :
    (sumIdx (X.shape.take mu) fun p => sumIdx (X.shape.drop (mu + 1)) fun q =>
        sparseEntry X (p ++ j :: q) * g p q)
      = ((X.mask mu j).map fun e => (X.entries.getD e ([], 0)).2
          * g ((X.entries.getD e ([], 0)).1.take mu) ((X.entries.getD e ([], 0)).1.drop (mu + 1))).sum := by
  have e1 : (sumIdx (X.shape.take mu) fun p => sumIdx (X.shape.drop (mu + 1)) fun q =>
        sparseEntry X (p ++ j :: q) * g p q)
      = sumIdx X.shape fun i => sparseEntry X i
          * (if i.getD mu 0 = j then g (i.take mu) (i.drop (mu + 1)) else 0) := by
    conv_rhs => rw [shape_three X.shape hmu, sumIdx_append]
    refine sumIdx_congr fun p hp => ?_
    rw [sumIdx_cons]
    have hl : p.length = mu := by rw [hp.length]; simp; omega
    rw [sum_eq_single_of_mem j (by simpa using hj)]
    · refine sumIdx_congr fun q _ => ?_
      have h1 : (p ++ j :: q).getD mu 0 = j := by
        rw [getD_eq (by simp; omega), List.getElem_append_right (by omega)]; simp [hl]
      have h2 : (p ++ j :: q).take mu = p := by rw [← hl, List.take_left]
      have h3 : (p ++ j :: q).drop (mu + 1) = q := by
        rw [← hl, List.drop_append]; simp
      rw [if_pos h1, h2, h3]
    · intro i _ hij
      refine sumIdx_eq_zero fun q _ => ?_
      have h1 : (p ++ i :: q).getD mu 0 = i := by
        rw [getD_eq (by simp; omega), List.getElem_append_right (by omega)]; simp [hl]
      rw [if_neg (by rw [h1]; exact hij), mul_zero]
  rw [e1, sparse_sum X hX, ← list_sum_range _ _ ([], 0)]
  unfold Sparse.mask Sparse.nnz
  have e2 : ∀ (l : List ℕ) (P : ℕ → Bool) (F : ℕ → K),
      ((l.filter P).map F).sum = (l.map fun e => if P e then F e else 0).sum := by
    intro l P F
    induction l with
    | nil => rfl
    | cons a l ih =>
      by_cases h : P a
      · simp [h, ih]
      · simp [h, ih]
  rw [e2]
  have e3 : ∀ n (F : ℕ → K), ((List.range n).map F).sum = ∑ e ∈ range n, F e := by
    intro n F
    induction n with
    | zero => simp
    | succ n ih => rw [List.range_succ, List.map_append, List.sum_append, ih, sum_range_succ]; simp
  rw [e3]
  refine sum_congr rfl fun e he => ?_
  have he' : e < X.entries.length := by simpa using he
  rw [X.row_getD mu e he', getD_eq he']
  simp only [decide_eq_true_eq]
  split_ifs <;> simp

/-! ### boundary cases: a missing contraction acts like a constant one -/

/-- `ones` -/
def ones (s : List ℕ) : ND K := ND.ofFn s fun _ => 1

theorem ones_get {s i : List ℕ} (h : InR s i) : (ones s : ND K).get i = 1 := ND.ofFn_get h

/-- the constant contraction standing for a missing left one -/
def unitL (X : Leaf K) : ND K :=
  match X with
  | .sparse X => ones [1, X.nnz]
  | .tt _ => ones [1, 1]
  | .cp X => ones [X.rank, 1]
  | .dense _ => ones [1, 1]
  | .tucker _ => ones [1, 1]

theorem unitL_contr (X : Leaf K) : IsContrL X 0 1 (fun _ _ => 1) (unitL X) := by
  cases X with
  | sparse X => exact ⟨rfl, fun e he a ha => ones_get ⟨ha, he, trivial⟩⟩
  | tt X =>
    refine ⟨1, rfl, rfl, fun y a ha => ?_⟩
    simp only [List.take_zero, sumIdx_nil, ttVal, mul_one]
    by_cases hy : y = 0
    · subst hy; simp only [if_true]; exact ones_get ⟨by omega, ha, trivial⟩
    · rw [if_neg (by omega)]
      exact ND.oob2 (A := ones [1, 1]) rfl (by omega)
  | cp X =>
    refine ⟨rfl, fun i a hi ha => ?_⟩
    simp only [List.take_zero, sumIdx_nil, cpProd, mul_one]
    exact ones_get ⟨hi, ha, trivial⟩
  | dense X =>
    refine ⟨rfl, fun p a hp ha => ?_⟩
    have hp' : p = [] := by simpa using hp.length
    subst hp'
    exact ones_get ⟨ha, by simp, trivial⟩
  | tucker X =>
    refine ⟨rfl, fun p a hp ha => ?_⟩
    have hp' : p = [] := by simpa using hp.length
    subst hp'
    simp only [List.take_zero, sumIdx_nil, facProd, mul_one]
    exact ones_get ⟨by simp, ha, trivial⟩

theorem unitR_contr (X : Leaf K) : IsContrR X X.shape.length 1 (fun _ _ => 1) (unitL X) := by
  cases X with
  | sparse X => exact ⟨rfl, fun e he a ha => ones_get ⟨ha, he, trivial⟩⟩
  | tt X =>
    have e : X.cores.drop X.shape.length = [] := by simp [TT.shape]
    refine ⟨1, ?_, rfl, fun y a hy ha => ?_⟩
    · show TTChain 1 (X.cores.drop X.shape.length) 1
      rw [e]; rfl
    · show _ = sumIdx (X.shape.drop X.shape.length) fun q => ttVal (X.cores.drop X.shape.length) q y 0 * 1
      rw [e, List.drop_length]
      have : y = 0 := by omega
      subst this
      simp only [sumIdx_nil, ttVal, mul_one, if_true]
      exact ones_get ⟨by omega, ha, trivial⟩
  | cp X =>
    have e : X.cores.drop X.shape.length = [] := by simp [CP.shape]
    refine ⟨rfl, fun i a hi ha => ?_⟩
    show _ = sumIdx (X.shape.drop X.shape.length) fun q => cpProd (X.cores.drop X.shape.length) q i * 1
    rw [e, List.drop_length]
    simp only [sumIdx_nil, cpProd, mul_one]
    exact ones_get ⟨hi, ha, trivial⟩
  | dense X =>
    refine ⟨?_, fun p a hp ha => ?_⟩
    · show [1, 1] = [1, (X.shape.drop X.shape.length).prod]
      rw [List.drop_length]; rfl
    · have hp2 : InR (X.shape.drop X.shape.length) p := hp
      rw [List.drop_length] at hp2
      have hp' : p = [] := by simpa using hp2.length
      subst hp'
      show (ones [1, 1]).get [a, ravel (X.shape.drop X.shape.length) []] = 1
      rw [List.drop_length]
      exact ones_get ⟨ha, by simp, trivial⟩
  | tucker X =>
    have e : X.rank.drop X.shape.length = [] := by simp [Tucker.shape, Tucker.rank]
    have e' : X.factors.drop X.shape.length = [] := by simp [Tucker.shape]
    refine ⟨?_, fun p a hp ha => ?_⟩
    · show [1, 1] = [(X.rank.drop X.shape.length).prod, 1]
      rw [e]; rfl
    · have hp2 : InR (X.rank.drop X.shape.length) p := hp
      rw [e] at hp2
      have hp' : p = [] := by simpa using hp2.length
      subst hp'
      show (ones [1, 1]).get [ravel (X.rank.drop X.shape.length) [], a]
        = sumIdx (X.shape.drop X.shape.length) fun q => facProd (X.factors.drop X.shape.length) [] q * 1
      rw [e, e', List.drop_length]
      simp only [sumIdx_nil, facProd, mul_one]
      exact ones_get ⟨by simp, ha, trivial⟩

/-- Arguments of the Psi functions for mode `mu`: the left contraction is missing exactly for
`mu = 0`, the right one exactly for the last mode. -/
structure PsiArgs (X : Leaf K) (mu lr rr : ℕ) (L R : List ℕ → ℕ → K) (lo ro : Option (ND K)) : Prop where
  left : (mu = 0 ∧ lo = none ∧ lr = 1 ∧ L = fun _ _ => 1) ∨
    (0 < mu ∧ ∃ l, lo = some l ∧ IsContrL X mu lr L l)
  right : (mu + 1 = X.shape.length ∧ ro = none ∧ rr = 1 ∧ R = fun _ _ => 1) ∨
    (mu + 1 < X.shape.length ∧ ∃ r, ro = some r ∧ IsContrR X (mu + 1) rr R r)

theorem nd3_ext {A B : ND K} {x y z : ℕ} (hA : A.shape = [x, y, z]) (hB : B.shape = [x, y, z])
    (h : ∀ a j b, a < x → j < y → b < z → A.get [a, j, b] = B.get [a, j, b]) : A = B := by
  refine ND.ext' (by rw [hA, hB]) fun i hi => ?_
  rw [hA] at hi
  match i, hi with
  | [a, j, b], hi => exact h a j b hi.1 hi.2.1 hi.2.2.1

/-! tensor train -/

theorem psiCore_none_left {C r : ND K} {n t t' m : ℕ} (hC : C.shape = [1, n, t]) (hr : r.shape = [t', m]) :
    ND.es_ijk_kl_ijl C r = ND.es_ij_jkl_lm_ikm (ones [1, 1]).matT C r := by
  have h1 : ((ones [1, 1] : ND K)).shape = [1, 1] := rfl
  have h2 := ND.matT_shape h1
  refine nd3_ext (ND.es_ijk_kl_ijl_shape hC hr) (ND.es_ij_jkl_lm_ikm_shape h2 hC hr) fun a j b ha hj hb => ?_
  rw [ND.es_ijk_kl_ijl_get hC hr, ND.es_ij_jkl_lm_ikm_get h2 hC hr]
  have : a = 0 := by omega
  subst this
  simp only [range_one, sum_singleton]
  rw [ND.matT_get h1, ones_get (by simp)]
  simp

theorem psiCore_none_right {C l : ND K} {n t x y : ℕ} (hC : C.shape = [t, n, 1]) (hl : l.shape = [x, y]) :
    ND.es_ij_jkl_ikl l.matT C = ND.es_ij_jkl_lm_ikm l.matT C (ones [1, 1]) := by
  have h1 : ((ones [1, 1] : ND K)).shape = [1, 1] := rfl
  have h2 := ND.matT_shape hl
  refine nd3_ext (ND.es_ij_jkl_ikl_shape h2 hC) (ND.es_ij_jkl_lm_ikm_shape h2 hC h1) fun a j b ha hj hb => ?_
  rw [ND.es_ij_jkl_ikl_get h2 hC, ND.es_ij_jkl_lm_ikm_get h2 hC h1]
  have : b = 0 := by omega
  subst this
  simp only [range_one, sum_singleton]
  rw [ones_get (by simp)]
  simp

theorem psi_tt {X : TT K} (hX : X.Valid) {mu lr rr : ℕ} {L R : List ℕ → ℕ → K}
    {lo ro : Option (ND K)} (hd : 2 ≤ X.shape.length) (ps : List ℕ)
    (h : PsiArgs (.tt X) mu lr rr L R lo ro) :
    psiLeaf (.tt X) mu ps lo ro = .ok (psiArr X.shape X.toNumpy.get L R lr rr mu) := by
  rcases h.left with ⟨h0, rfl, rfl, rfl⟩ | ⟨h0, l, rfl, hl⟩ <;>
  rcases h.right with ⟨h1, rfl, rfl, rfl⟩ | ⟨h1, r, rfl, hr⟩
  · have : mu + 1 = X.shape.length := h1
    omega
  · have h1' : mu + 1 < X.shape.length := h1
    subst h0
    have hl := unitL_contr (.tt X)
    rw [← psi_tt_full hX (by omega) hl hr]
    obtain ⟨x, hlc, _⟩ := hl
    obtain ⟨z, hrc, hrs, _⟩ := hr
    have hC := TT.around (mu := 0) (by simpa [TT.shape] using (by omega : 0 < X.shape.length)) rfl hX hlc hrc
    have : x = 1 := by simp [TTChain] at hlc; omega
    subst this
    show Except.ok _ = Except.ok _
    rw [psiCore_none_left hC hrs]; rfl
  · have h1' : mu + 1 = X.shape.length := h1
    have hr := unitR_contr (.tt X)
    rw [show (Leaf.tt X).shape.length = mu + 1 from h1'.symm] at hr
    rw [← psi_tt_full hX (by omega) hl hr]
    obtain ⟨x, hlc, hls, _⟩ := hl
    obtain ⟨z, hrc, hrs, _⟩ := hr
    have hmu : mu < X.cores.length := by
      have : X.cores.length = X.shape.length := by simp [TT.shape]
      omega
    have hC := TT.around hmu rfl hX hlc hrc
    have : z = 1 := by
      have e : X.cores.drop (mu + 1) = [] := by rw [h1']; simp [TT.shape]
      rw [e] at hrc; exact hrc
    subst this
    show Except.ok _ = Except.ok _
    rw [psiCore_none_right hC hls]; rfl
  · have h1' : mu + 1 < X.shape.length := h1
    rw [← psi_tt_full hX (by omega) hl hr]; rfl

/-! CP -/

theorem psi_cp {X : CP K} (hX : X.Valid) {mu lr rr : ℕ} {L R : List ℕ → ℕ → K}
    {lo ro : Option (ND K)} (hd : 2 ≤ X.shape.length) (ps : List ℕ)
    (h : PsiArgs (.cp X) mu lr rr L R lo ro) :
    psiLeaf (.cp X) mu ps lo ro = .ok (psiArr X.shape X.toNumpy.get L R lr rr mu) := by
  have hlen : X.cores.length = X.shape.length := by simp [CP.shape]
  rcases h.left with ⟨h0, rfl, rfl, rfl⟩ | ⟨h0, l, rfl, hl⟩ <;>
  rcases h.right with ⟨h1, rfl, rfl, rfl⟩ | ⟨h1, r, rfl, hr⟩
  · have : mu + 1 = X.shape.length := h1
    omega
  · have h1' : mu + 1 < X.shape.length := h1
    subst h0
    have hl := unitL_contr (.cp X)
    rw [← psi_cp_full hX (by omega) hl hr]
    obtain ⟨hls, _⟩ := hl
    obtain ⟨hrs, _⟩ := hr
    have hC := hX.core_shape (k := 0) (by omega)
    have hlT := ND.matT_shape hls
    have hP := ND.es_ji_il_jl_shape hC hrs
    show Except.ok _ = Except.ok _
    congr 1
    refine nd3_ext (by rw [ND.reshape_shape, hP]) (ND.es_ij_kj_jm_ikm_shape hlT hC hrs) fun a j b ha hj hb => ?_
    have : a = 0 := by omega
    subst this
    rw [ND.reshape_add_one rfl, ND.es_ji_il_jl_get hC hrs, ND.es_ij_kj_jm_ikm_get hlT hC hrs]
    refine sum_congr rfl fun y hy => ?_
    have : ((unitL (.cp X) : ND K)).matT.get [0, y] = 1 := by
      rw [ND.matT_get hls]; exact ones_get ⟨by simpa using hy, by omega, trivial⟩
    rw [this, one_mul]
  · have h1' : mu + 1 = X.shape.length := h1
    have hr := unitR_contr (.cp X)
    rw [show (Leaf.cp X).shape.length = mu + 1 from h1'.symm] at hr
    rw [← psi_cp_full hX (by omega) hl hr]
    obtain ⟨hls, _⟩ := hl
    obtain ⟨hrs, _⟩ := hr
    have hC := hX.core_shape (k := mu) (by omega)
    have hlT := ND.matT_shape hls
    have hP := ND.es_il_kl_ik_shape hlT hC
    show Except.ok _ = Except.ok _
    congr 1
    refine nd3_ext (by rw [ND.reshape_shape, hP]; rfl) (ND.es_ij_kj_jm_ikm_shape hlT hC hrs) fun a j b ha hj hb => ?_
    have : b = 0 := by omega
    subst this
    rw [show [a, j, 0] = [a, j] ++ [0] from rfl, ND.reshape_add_last_one rfl, ND.es_il_kl_ik_get hlT hC]
    show _ = (ND.es_ij_kj_jm_ikm _ _ _).get [a, j, 0]
    rw [ND.es_ij_kj_jm_ikm_get hlT hC hrs]
    refine sum_congr rfl fun y hy => ?_
    have : ((unitL (.cp X) : ND K)).get [y, 0] = 1 :=
      ones_get ⟨by simpa using hy, by omega, trivial⟩
    rw [this, mul_one]
  · have h1' : mu + 1 < X.shape.length := h1
    rw [← psi_cp_full hX (by omega) hl hr]; rfl

/-! dense -/

theorem dropLast_take (sh : List ℕ) (mu : ℕ) (h : mu + 1 = sh.length) :
    sh.eraseIdx mu = sh.take mu := by
  rw [List.eraseIdx_eq_take_drop_succ, List.drop_eq_nil_of_le (by omega), List.append_nil]

theorem matricize_last {A : ND K} {mu : ℕ} (h : mu + 1 = A.shape.length) :
    (A.matricize [mu] true).shape = [A.shape.getD mu 0, (A.shape.take mu).prod] ∧
    ∀ p j, InR (A.shape.take mu) p → j < A.shape.getD mu 0 →
      (A.matricize [mu] true).get [j, ravel (A.shape.take mu) p] = A.get (p ++ [j]) := by
  have e1 : ∀ l : List ℕ, l.length = A.shape.length →
      (restModes A.ndim [mu]).map (fun a => l.getD a 0) = l.take mu := by
    intro l hl
    have := restModes_single (m := mu) l (by omega)
    rw [hl] at this
    rw [show A.ndim = A.shape.length from rfl, this, dropLast_take _ _ (by omega)]
  have e2 : [mu].map (fun a => A.shape.getD a 0) = [A.shape.getD mu 0] := rfl
  constructor
  · rw [matricize_shape_true, e1 _ rfl, e2]; simp
  · intro p j hp hj
    have hpl : p.length = mu := by rw [hp.length]; simp; omega
    have hin : InR A.shape (p ++ [j]) := by
      have := hp.append (show InR [A.shape.getD mu 0] [j] from ⟨hj, trivial⟩)
      rwa [← take_succ_getD (by omega), List.take_of_length_le (by omega)] at this
    have := matricize_get_true (A := A) (mode := [mu]) (by simp [ND.ndim]; omega) hin
    rw [e1 _ rfl, e1 _ hin.length, e2] at this
    have e3 : (p ++ [j]).take mu = p := by rw [← hpl, List.take_left]
    have e4 : [mu].map (fun a => (p ++ [j]).getD a 0) = [j] := by
      simp only [List.map_cons, List.map_nil]
      rw [getD_eq (by simp; omega), List.getElem_append_right (by omega)]; simp [hpl]
    rw [e3, e4] at this
    simpa using this

theorem psi_dense {X : ND K} {mu lr rr : ℕ} {L R : List ℕ → ℕ → K}
    {lo ro : Option (ND K)} (hd : 2 ≤ X.shape.length) (ps : List ℕ)
    (h : PsiArgs (.dense X) mu lr rr L R lo ro) :
    psiLeaf (.dense X) mu ps lo ro = .ok (psiArr X.shape X.get L R lr rr mu) := by
  rcases h.left with ⟨h0, rfl, rfl, rfl⟩ | ⟨h0, l, rfl, hl⟩ <;>
  rcases h.right with ⟨h1, rfl, rfl, rfl⟩ | ⟨h1, r, rfl, hr⟩
  · have : mu + 1 = X.shape.length := h1
    omega
  · have h1' : mu + 1 < X.shape.length := h1
    subst h0
    obtain ⟨hrs, hrg⟩ := hr
    have hrT := ND.matT_shape hrs
    have hm := matricize_range_true X 1 (by omega)
    have hMs : (X.matricize [0] true).shape = [(X.shape.take 1).prod, (X.shape.drop 1).prod] := by
      rw [show [0] = List.range 1 from rfl, hm, ND.reshape_shape]
    have hP := ND.matmul_shape' hMs hrT
    show Except.ok _ = Except.ok _
    congr 1
    have ht : X.shape.take 1 = [X.shape.getD 0 0] := take_two_getD (by omega) 0
    refine eq_psiArr (by rw [ND.reshape_shape, hP, ht]; simp) fun a j b ha hj hb => ?_
    have : a = 0 := by omega
    subst this
    rw [ND.reshape_add_one rfl, ND.matmul_get hMs hrT, ← sum_ravel]
    unfold psiVal
    rw [List.take_zero, sumIdx_nil]
    refine sumIdx_congr fun q hq => ?_
    have hp : InR (X.shape.take 1) [j] := by rw [ht]; exact ⟨hj, trivial⟩
    have := matricize_lead (A := X) (k := 1) (by omega) hp hq
    have e : ravel (X.shape.take 1) [j] = j := by rw [ht]; simp
    rw [e] at this
    rw [show [0] = List.range 1 from rfl, this, ND.matT_get hrs, hrg q b hq hb]
    simp
  · have h1' : mu + 1 = X.shape.length := h1
    obtain ⟨hls, hlg⟩ := hl
    obtain ⟨hMs, hMg⟩ := matricize_last h1'
    have hMT := ND.matT_shape hMs
    have hP := ND.matmul_shape' hls hMT
    have e : X.ndim - 1 = mu := by rw [show X.ndim = X.shape.length from rfl]; omega
    have hval : psiLeaf (.dense X) mu ps (some l) none
        = .ok ((l.matmul (X.matricize [mu] true).matT).reshape ([lr, X.shape.getD mu 0] ++ [1])) := by
      show Except.ok _ = _
      rw [e, hP]
    rw [hval]
    congr 1
    refine eq_psiArr (by rw [ND.reshape_shape]; rfl) fun a j b ha hj hb => ?_
    have : b = 0 := by omega
    subst this
    rw [show [a, j, 0] = [a, j] ++ [0] from rfl, ND.reshape_add_last_one hP, ND.matmul_get hls hMT, ← sum_ravel]
    unfold psiVal
    refine sumIdx_congr fun p hp => ?_
    rw [List.drop_eq_nil_of_le (by omega), sumIdx_nil, hlg p a hp ha, ND.matT_get hMs, hMg p j hp hj]
    simp
  · have h1' : mu + 1 < X.shape.length := h1
    rw [← psi_dense_full (by omega) hl hr, ← matricize3 X (by omega)]; rfl

/-! Tucker -/

theorem psi_tucker {X : Tucker K} (hX : X.Valid) {mu lr rr : ℕ} {L R : List ℕ → ℕ → K}
    {lo ro : Option (ND K)} (hd : 2 ≤ X.shape.length) (ps : List ℕ)
    (h : PsiArgs (.tucker X) mu lr rr L R lo ro) :
    psiLeaf (.tucker X) mu ps lo ro = .ok (psiArr X.shape X.toNumpy.get L R lr rr mu) := by
  have hrl : X.rank.length = X.shape.length := by simp [Tucker.rank, Tucker.shape]
  have hfl : X.factors.length = X.shape.length := by simp [Tucker.shape]
  have hmu : mu < X.shape.length := by
    rcases h.right with ⟨h1, _⟩ | ⟨h1, _⟩
    · exact Nat.lt_of_succ_le (Nat.le_of_eq h1)
    · exact lt_trans (Nat.lt_succ_self mu) h1
  have hres : X.core.reshape? [(X.rank.take mu).prod, X.rank.getD mu 0, (X.rank.drop (mu + 1)).prod]
      = .ok (dense3 X.core mu) := by
    unfold ND.reshape? dense3
    have hp : X.core.shape.prod = (X.rank.take mu).prod * (X.rank.getD mu 0 * (X.rank.drop (mu + 1)).prod) := by
      rw [hX.2]
      conv_lhs => rw [shape_three X.rank (by omega : mu < X.rank.length)]
      simp
    rw [if_pos (by simp [hp]), hX.2]
  have hC : (dense3 X.core mu).shape
      = [(X.rank.take mu).prod, X.rank.getD mu 0, (X.rank.drop (mu + 1)).prod] := by
    unfold dense3; rw [ND.reshape_shape, hX.2]
  have main : ∀ P : ND K, psiCore (dense3 X.core mu) lo ro = .ok P →
      ((lo.map fun l => l.dim 0).getD 1) = (X.rank.take mu).prod →
      ((ro.map fun r => r.dim 0).getD 1) = (X.rank.drop (mu + 1)).prod →
      psiLeaf (.tucker X) mu ps lo ro = .ok (ND.es_ijk_jl_ilk P (X.factors.getD mu (ND.zeros []))) := by
    intro P hP h1 h2
    show psiTucker X mu lo ro = _
    unfold psiTucker
    simp only [h1, h2, hres, hP]
  rcases h.left with ⟨h0, rfl, rfl, rfl⟩ | ⟨h0, l, rfl, hl⟩ <;>
  rcases h.right with ⟨h1, rfl, rfl, rfl⟩ | ⟨h1, r, rfl, hr⟩
  · have : mu + 1 = X.shape.length := h1
    omega
  · have h1' : mu + 1 < X.shape.length := h1
    subst h0
    have hl := unitL_contr (.tucker X)
    rw [← psi_tucker_full hX (by omega) hl hr]
    obtain ⟨hls, _⟩ := hl
    obtain ⟨hrs, _⟩ := hr
    have := main _ rfl (by simp) (by simp [ND.dim, hrs])
    rw [this, psiCore_none_left (n := X.rank.getD 0 0) (t := (X.rank.drop 1).prod) (by rw [hC]; rfl) hrs]; rfl
  · have h1' : mu + 1 = X.shape.length := h1
    have hr := unitR_contr (.tucker X)
    rw [show (Leaf.tucker X).shape.length = mu + 1 from h1'.symm] at hr
    rw [← psi_tucker_full hX (by omega) hl hr]
    obtain ⟨hls, _⟩ := hl
    have hdn : X.rank.drop (mu + 1) = [] := by rw [h1', ← hrl, List.drop_length]
    have := main _ rfl (by simp [ND.dim, hls]) (by simp [hdn])
    rw [this, psiCore_none_right (by rw [hC, hdn]; rfl) hls]; rfl
  · have h1' : mu + 1 < X.shape.length := h1
    rw [← psi_tucker_full hX (by omega) hl hr]
    obtain ⟨hls, _⟩ := hl
    obtain ⟨hrs, _⟩ := hr
    exact main _ rfl (by simp [ND.dim, hls]) (by simp [ND.dim, hrs])

/-! sparse -/

theorem psiSparse_ok (X : Sparse K) (mu : ℕ) (ps : List ℕ) (lo ro : Option (ND K))
    (g : ℕ → ℕ → ℕ → K) (h : ∀ j < ps.getD 1 0, psiSparseSlice X mu j lo ro = .ok (g j)) :
    psiSparse X mu ps lo ro = .ok (ND.ofFn ps fun i => if i.getD 1 0 < ps.getD 1 0 then
      g (i.getD 1 0) (i.getD 0 0) (i.getD 2 0) else 0) := by
  unfold psiSparse
  rw [mapM_ok (g := g) (fun x hx => h x (by simpa using hx))]
  simp only []
  congr 2
  funext i
  split_ifs with hi
  · rw [getD_map_range _ _ _ _ hi]
  · rw [List.getD_eq_default _ _ (by simpa using hi)]

theorem psi_sparse {X : Sparse K} (hX : X.Valid) (hdis : X.Distinct) {mu lr rr : ℕ}
    {L R : List ℕ → ℕ → K} {lo ro : Option (ND K)} (hd : 2 ≤ X.shape.length)
    (h : PsiArgs (.sparse X) mu lr rr L R lo ro) :
    psiLeaf (.sparse X) mu [lr, X.shape.getD mu 0, rr] lo ro
      = .ok (psiArr X.shape X.toNumpy.get L R lr rr mu) := by
  have hmu : mu < X.shape.length := by
    rcases h.right with ⟨h1, _⟩ | ⟨h1, _⟩
    · exact Nat.lt_of_succ_le (Nat.le_of_eq h1)
    · exact lt_trans (Nat.lt_succ_self mu) h1
  have key : ∀ a j b, j < X.shape.getD mu 0 → psiVal X.shape X.toNumpy.get L R mu a j b
      = ((X.mask mu j).map fun e => (X.entries.getD e ([], 0)).2
          * (L ((X.entries.getD e ([], 0)).1.take mu) a
            * R ((X.entries.getD e ([], 0)).1.drop (mu + 1)) b)).sum := by
    intro a j b hj
    rw [← sparse_slice_sum X hX hmu j hj (fun p q => L p a * R q b)]
    refine sumIdx_congr fun p _ => sumIdx_congr fun q _ => ?_
    rw [X.toNumpy_get hX hdis]; ring
  have hmask : ∀ j, ∀ e ∈ X.mask mu j, e < X.entries.length := by
    intro j e he
    have := (List.mem_filter.1 he).1
    simpa [Sparse.nnz] using this
  have hv : ∀ e, e < X.entries.length →
      (X.entries.map Prod.snd).getD e 0 = (X.entries.getD e ([], 0)).2 := fun e he =>
    getD_map_lt _ _ e he _ _
  have fin : ∀ g : ℕ → ℕ → ℕ → K,
      (∀ j < X.shape.getD mu 0, psiSparseSlice X mu j lo ro = .ok (g j)) →
      (∀ a j b, a < lr → j < X.shape.getD mu 0 → b < rr → g j a b
        = psiVal X.shape X.toNumpy.get L R mu a j b) →
      psiLeaf (.sparse X) mu [lr, X.shape.getD mu 0, rr] lo ro
        = .ok (psiArr X.shape X.toNumpy.get L R lr rr mu) := by
    intro g h1 h2
    show psiSparse X mu _ lo ro = _
    rw [psiSparse_ok X mu _ lo ro g h1]
    congr 1
    refine eq_psiArr rfl fun a j b ha hj hb => ?_
    rw [ND.ofFn_get (show InR [lr, X.shape.getD mu 0, rr] [a, j, b] from ⟨ha, hj, hb, trivial⟩)]
    exact (if_pos hj).trans (h2 a j b ha hj hb)
  rcases h.left with ⟨h0, rfl, rfl, rfl⟩ | ⟨h0, l, rfl, hl⟩ <;>
  rcases h.right with ⟨h1, rfl, rfl, rfl⟩ | ⟨h1, r, rfl, hr⟩
  · have : mu + 1 = X.shape.length := h1
    omega
  · refine fin _ (fun j _ => by unfold psiSparseSlice; rw [if_pos h0]) fun a j b ha hj hb => ?_
    rw [key a j b hj]
    congr 1
    refine List.map_congr_left fun e he => ?_
    have he' := hmask j e he
    rw [hv e he', hr.2 e he' b hb, getD_eq he', one_mul]
  · have h1' : mu + 1 = X.shape.length := h1
    refine fin _ (fun j _ => by
      unfold psiSparseSlice; rw [if_neg (by omega), if_pos (by omega)]) fun a j b ha hj hb => ?_
    rw [key a j b hj]
    congr 1
    refine List.map_congr_left fun e he => ?_
    have he' := hmask j e he
    rw [hv e he', hl.2 e he' a ha, getD_eq he']; ring
  · have h1' : mu + 1 < X.shape.length := h1
    refine fin _ (fun j _ => by
      unfold psiSparseSlice; rw [if_neg (by omega), if_neg (by omega)]) fun a j b ha hj hb => ?_
    rw [key a j b hj]
    congr 1
    refine List.map_congr_left fun e he => ?_
    have he' := hmask j e he
    rw [hv e he', hl.2 e he' a ha, hr.2 e he' b hb, getD_eq he']; ring

/-! ### all formats -/

theorem psi_spec {X : Leaf K} (hX : X.Valid) (hdis : X.Distinct) (hd : 2 ≤ X.shape.length)
    {mu lr rr : ℕ} {L R : List ℕ → ℕ → K} {lo ro : Option (ND K)} (h : PsiArgs X mu lr rr L R lo ro) :
    psiLeaf X mu [lr, X.shape.getD mu 0, rr] lo ro
      = .ok (psiArr X.shape X.toNumpy.get L R lr rr mu) := by
  cases X with
  | sparse X => exact psi_sparse hX hdis hd h
  | tt X => exact psi_tt hX hd _ h
  | cp X => exact psi_cp hX hd _ h
  | dense X => exact psi_dense hd _ h
  | tucker X => exact psi_tucker hX hd _ h

theorem omega_spec {X : Leaf K} (hX : X.Valid) (hdis : X.Distinct) {mu : ℕ}
    (hmu : mu + 1 ≤ X.shape.length) {lr rr : ℕ} {L R : List ℕ → ℕ → K} {l r : ND K}
    (hl : IsContrL X (mu + 1) lr L l) (hr : IsContrR X (mu + 1) rr R r) :
    omegaLeaf X mu l r = ND.ofFn [lr, rr] fun i =>
      sumIdx (X.shape.take (mu + 1)) fun p => sumIdx (X.shape.drop (mu + 1)) fun q =>
        L p (i.getD 0 0) * X.toNumpy.get (p ++ q) * R q (i.getD 1 0) := by
  cases X with
  | sparse X => exact omega_sparse hX hdis hl hr
  | tt X => exact omega_tt hX hl hr
  | cp X => exact omega_cp hX hl hr
  | dense X => exact omega_dense hmu hl hr
  | tucker X => exact omega_tucker hX hmu hl hr

end
end TTS
