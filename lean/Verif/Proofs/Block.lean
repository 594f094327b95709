import Verif.Proofs.SketchSum
import Verif.Proofs.Slice
import Verif.Props.DRM

/-! Blocks of a sketch: an entry depends on one column of each contraction only. -/

namespace TTS

open Finset

variable {K : Type*}

section
variable [CommSemiring K]

/-- Column `a` of the contraction `M` equals column `a'` of `M'`. -/
def SameCol (X : Leaf K) (M : ND K) (a : ℕ) (M' : ND K) (a' : ℕ) : Prop :=
  match X with
  | .sparse _ => ∃ p p' q, M.shape = [p, q] ∧ M'.shape = [p', q] ∧ ∀ y, M.get [a, y] = M'.get [a', y]
  | .dense _ => ∃ p p' q, M.shape = [p, q] ∧ M'.shape = [p', q] ∧ ∀ y, M.get [a, y] = M'.get [a', y]
  | _ => ∃ p p' q, M.shape = [q, p] ∧ M'.shape = [q, p'] ∧ ∀ y, M.get [y, a] = M'.get [y, a']

theorem sameCol_slice {X : Leaf K} {M : ND K} {p q : ℕ} (h : M.shape = [p, q]) {a b c : ℕ} (hc : a + c < b) :
    SameCol X (X.sliceContr M a b) c M (a + c) := by
  cases X with
  | sparse X => exact ⟨_, _, _, ND.rows_shape h a b, h, fun y => ND.rows_get h a b c y hc⟩
  | dense X => exact ⟨_, _, _, ND.rows_shape h a b, h, fun y => ND.rows_get h a b c y hc⟩
  | tt X => exact ⟨_, _, _, ND.cols_shape h a b, h, fun y => ND.cols_get h a b y c hc⟩
  | cp X => exact ⟨_, _, _, ND.cols_shape h a b, h, fun y => ND.cols_get h a b y c hc⟩
  | tucker X => exact ⟨_, _, _, ND.cols_shape h a b, h, fun y => ND.cols_get h a b y c hc⟩

theorem mulCols_get {A : ND K} {p q : ℕ} (hA : A.shape = [p, q]) (v : List K) (x y : ℕ) :
    (A.mulCols v).get [x, y] = A.get [x, y] * v.getD y 0 := by
  unfold ND.mulCols
  have hd : [A.dim 0, A.dim 1] = [p, q] := by unfold ND.dim; rw [hA]; rfl
  by_cases h : InR [p, q] [x, y]
  · rw [hd, ND.ofFn_get h]; rfl
  · rw [ND.supp A _ (by rw [hA]; exact h), ND.supp _ _ (by rw [ND.ofFn_shape, hd]; exact h), zero_mul]

theorem mulCols_shape {A : ND K} {p q : ℕ} (hA : A.shape = [p, q]) (v : List K) :
    (A.mulCols v).shape = [p, q] := by
  unfold ND.mulCols ND.dim; rw [ND.ofFn_shape, hA]; rfl

/-- An entry of Omega depends on one column of each contraction. -/
theorem omega_col {X : Leaf K} {mu : ℕ} (hmu : mu + 1 ≤ X.shape.length) (hX : X.Valid)
    {l l' r r' : ND K} {a a' b b' : ℕ}
    (hl : SameCol X l a l' a') (hr : SameCol X r b r' b') :
    (omegaLeaf X mu l r).get [a, b] = (omegaLeaf X mu l' r').get [a', b'] := by
  cases X with
  | sparse X =>
    obtain ⟨p, p', q, h1, h2, h3⟩ := hl
    obtain ⟨s, s', t, k1, k2, k3⟩ := hr
    show ((l.mulCols _).matmul r.matT).get _ = ((l'.mulCols _).matmul r'.matT).get _
    rw [ND.matmul_get (mulCols_shape h1 _) (ND.matT_shape k1), ND.matmul_get (mulCols_shape h2 _) (ND.matT_shape k2)]
    refine sum_congr rfl fun y _ => ?_
    rw [mulCols_get h1, mulCols_get h2, ND.matT_get k1, ND.matT_get k2, h3, k3]
  | tt X =>
    obtain ⟨p, p', q, h1, h2, h3⟩ := hl
    obtain ⟨s, s', t, k1, k2, k3⟩ := hr
    show (l.matT.matmul r).get _ = (l'.matT.matmul r').get _
    rw [ND.matmul_get (ND.matT_shape h1) k1, ND.matmul_get (ND.matT_shape h2) k2]
    refine sum_congr rfl fun y _ => ?_
    rw [ND.matT_get h1, ND.matT_get h2, h3, k3]
  | cp X =>
    obtain ⟨p, p', q, h1, h2, h3⟩ := hl
    obtain ⟨s, s', t, k1, k2, k3⟩ := hr
    show (l.matT.matmul r).get _ = (l'.matT.matmul r').get _
    rw [ND.matmul_get (ND.matT_shape h1) k1, ND.matmul_get (ND.matT_shape h2) k2]
    refine sum_congr rfl fun y _ => ?_
    rw [ND.matT_get h1, ND.matT_get h2, h3, k3]
  | dense X =>
    obtain ⟨p, p', q, h1, h2, h3⟩ := hl
    obtain ⟨s, s', t, k1, k2, k3⟩ := hr
    show ((l.matmul _).matmul r.matT).get _ = ((l'.matmul _).matmul r'.matT).get _
    have hM : (X.matricize (List.range (mu + 1)) true).shape
        = [(X.shape.take (mu + 1)).prod, (X.shape.drop (mu + 1)).prod] := by
      rw [matricize_range_true X _ hmu, ND.reshape_shape]
    rw [ND.matmul_get (ND.matmul_shape' h1 hM) (ND.matT_shape k1),
      ND.matmul_get (ND.matmul_shape' h2 hM) (ND.matT_shape k2)]
    refine sum_congr rfl fun y _ => ?_
    rw [ND.matmul_get h1 hM, ND.matmul_get h2 hM, ND.matT_get k1, ND.matT_get k2, k3]
    congr 1
    exact sum_congr rfl fun z _ => by rw [h3]
  | tucker X =>
    obtain ⟨p, p', q, h1, h2, h3⟩ := hl
    obtain ⟨s, s', t, k1, k2, k3⟩ := hr
    show ((l.matT.matmul _).matmul r).get _ = ((l'.matT.matmul _).matmul r').get _
    have hfl : X.core.shape.length = X.shape.length := by
      rw [hX.2]; simp [Tucker.rank, Tucker.shape]
    have hM : (X.core.matricize (List.range (mu + 1)) true).shape
        = [(X.core.shape.take (mu + 1)).prod, (X.core.shape.drop (mu + 1)).prod] := by
      rw [matricize_range_true X.core _ (by rw [hfl]; exact hmu), ND.reshape_shape]
    rw [ND.matmul_get (ND.matmul_shape' (ND.matT_shape h1) hM) k1,
      ND.matmul_get (ND.matmul_shape' (ND.matT_shape h2) hM) k2]
    refine sum_congr rfl fun y _ => ?_
    rw [ND.matmul_get (ND.matT_shape h1) hM, ND.matmul_get (ND.matT_shape h2) hM, k3]
    congr 1
    exact sum_congr rfl fun z _ => by rw [ND.matT_get h1, ND.matT_get h2, h3]

/-- `SameCol` for the optional contractions of Psi. -/
def OptCol (X : Leaf K) (l : Option (ND K)) (a : ℕ) (l' : Option (ND K)) (a' : ℕ) : Prop :=
  (l = none ∧ l' = none ∧ a = 0 ∧ a' = 0) ∨ ∃ m m', l = some m ∧ l' = some m' ∧ SameCol X m a m' a'

theorem psiCore_col {C : ND K} {x n y : ℕ} (hC : C.shape = [x, n, y]) {lo lo' ro ro' : Option (ND K)}
    {a a' b b' : ℕ} (X : Leaf K) (hX : (∃ Y, X = .tt Y) ∨ ∃ Y, X = .tucker Y)
    (hl : OptCol X lo a lo' a') (hr : OptCol X ro b ro' b') {P P' : ND K}
    (hP : psiCore C lo ro = .ok P) (hP' : psiCore C lo' ro' = .ok P') (j : ℕ) :
    P.get [a, j, b] = P'.get [a', j, b'] := by
  have hsc : ∀ M u M' u', SameCol X M u M' u' →
      ∃ p p' q, M.shape = [q, p] ∧ M'.shape = [q, p'] ∧ ∀ y, M.get [y, u] = M'.get [y, u'] := by
    rcases hX with ⟨Y, rfl⟩ | ⟨Y, rfl⟩ <;> exact fun M u M' u' h => h
  rcases hl with ⟨rfl, rfl, rfl, rfl⟩ | ⟨l, l', rfl, rfl, hl⟩ <;>
  rcases hr with ⟨rfl, rfl, rfl, rfl⟩ | ⟨r, r', rfl, rfl, hr⟩
  · cases hP
  · obtain ⟨s, s', t, k1, k2, k3⟩ := hsc _ _ _ _ hr
    cases hP; cases hP'
    rw [ND.es_ijk_kl_ijl_get hC k1, ND.es_ijk_kl_ijl_get hC k2]
    exact sum_congr rfl fun y _ => by rw [k3]
  · obtain ⟨p, p', q, h1, h2, h3⟩ := hsc _ _ _ _ hl
    cases hP; cases hP'
    rw [ND.es_ij_jkl_ikl_get (ND.matT_shape h1) hC, ND.es_ij_jkl_ikl_get (ND.matT_shape h2) hC]
    exact sum_congr rfl fun y _ => by rw [ND.matT_get h1, ND.matT_get h2, h3]
  · obtain ⟨s, s', t, k1, k2, k3⟩ := hsc _ _ _ _ hr
    obtain ⟨p, p', q, h1, h2, h3⟩ := hsc _ _ _ _ hl
    cases hP; cases hP'
    rw [ND.es_ij_jkl_lm_ikm_get (ND.matT_shape h1) hC k1, ND.es_ij_jkl_lm_ikm_get (ND.matT_shape h2) hC k2]
    exact sum_congr rfl fun y _ => sum_congr rfl fun z _ => by rw [ND.matT_get h1, ND.matT_get h2, h3, k3]

/-- An entry of Psi depends on one column of each contraction. -/
theorem psi_col {X : Leaf K} {mu : ℕ} (hmu : mu < X.shape.length) (hX : X.Valid)
    (hd : 2 ≤ X.shape.length) {lo lo' ro ro' : Option (ND K)} {lr lr' rr rr' a a' b b' j : ℕ}
    (hlo : lo = none ↔ mu = 0) (hro : ro = none ↔ mu + 1 = X.shape.length)
    (hl : OptCol X lo a lo' a') (hr : OptCol X ro b ro' b') {P P' : ND K}
    (ha : a < lr) (ha' : a' < lr') (hb : b < rr) (hb' : b' < rr') (hj : j < X.shape.getD mu 0)
    (hP : psiLeaf X mu [lr, X.shape.getD mu 0, rr] lo ro = .ok P)
    (hP' : psiLeaf X mu [lr', X.shape.getD mu 0, rr'] lo' ro' = .ok P') :
    P.get [a, j, b] = P'.get [a', j, b'] := by
  cases X with
  | sparse X =>
    have hd' : 2 ≤ X.shape.length := hd
    have key : ∀ j, ∃ g g', psiSparseSlice X mu j lo ro = .ok g ∧ psiSparseSlice X mu j lo' ro' = .ok g' ∧
        g a b = g' a' b' := by
      intro j
      unfold psiSparseSlice
      rcases hl with ⟨rfl, rfl, rfl, rfl⟩ | ⟨l, l', rfl, rfl, hl⟩ <;>
      rcases hr with ⟨rfl, rfl, rfl, rfl⟩ | ⟨r, r', rfl, rfl, hr⟩
      · have h1 := hlo.1 rfl
        have h2 : mu + 1 = X.shape.length := hro.1 rfl
        omega
      · have h1 := hlo.1 rfl
        obtain ⟨s, s', t, k1, k2, k3⟩ := hr
        rw [if_pos h1, if_pos h1]
        exact ⟨_, _, rfl, rfl, by simp only [k3]⟩
      · have h1 : ¬ mu = 0 := fun h => by simpa using hlo.2 h
        have h2 : mu + 1 = X.shape.length := hro.1 rfl
        obtain ⟨p, p', q, h1', h2', h3⟩ := hl
        rw [if_neg h1, if_pos (by omega), if_neg h1, if_pos (by omega)]
        exact ⟨_, _, rfl, rfl, by simp only [h3]⟩
      · have h1 : ¬ mu = 0 := fun h => by simpa using hlo.2 h
        have h2 : ¬ mu + 1 = X.shape.length := fun h => by simpa using hro.2 h
        obtain ⟨s, s', t, k1, k2, k3⟩ := hr
        obtain ⟨p, p', q, h1', h2', h3⟩ := hl
        rw [if_neg h1, if_neg (by omega), if_neg h1, if_neg (by omega)]
        exact ⟨_, _, rfl, rfl, by simp only [h3, k3]⟩
    choose g g' h1 h2 h3 using key
    have e := psiSparse_ok X mu [lr, X.shape.getD mu 0, rr] lo ro g fun j _ => h1 j
    have e' := psiSparse_ok X mu [lr', X.shape.getD mu 0, rr'] lo' ro' g' fun j _ => h2 j
    have q1 := e.symm.trans hP
    have q2 := e'.symm.trans hP'
    injection q1 with q1
    injection q2 with q2
    rw [← q1, ← q2, ND.ofFn_get (show InR [lr, X.shape.getD mu 0, rr] [a, j, b] from ⟨ha, hj, hb, trivial⟩),
      ND.ofFn_get (show InR [lr', X.shape.getD mu 0, rr'] [a', j, b'] from ⟨ha', hj, hb', trivial⟩)]
    have hj' : j < X.shape.getD mu 0 := hj
    show (if j < X.shape.getD mu 0 then _ else _) = (if j < X.shape.getD mu 0 then _ else _)
    rw [if_pos hj', if_pos hj']
    exact h3 j
  | tt X =>
    have hlen : X.cores.length = X.shape.length := by simp [TT.shape]
    have hmu' : mu < X.shape.length := hmu
    obtain ⟨x, hc, h0, h1⟩ := TT.Valid.cores hX
    exact psiCore_col (hc mu (by omega)) (.tt X) (Or.inl ⟨_, rfl⟩) hl hr hP hP' j
  | cp X =>
    have hlen : X.cores.length = X.shape.length := by simp [CP.shape]
    have hmu' : mu < X.shape.length := hmu
    have hC := CP.Valid.core_shape hX (k := mu) (by omega)
    have hP : psiCP (X.cores.getD mu (ND.zeros [])) lo ro = .ok P := hP
    have hP' : psiCP (X.cores.getD mu (ND.zeros [])) lo' ro' = .ok P' := hP'
    rcases hl with ⟨rfl, rfl, rfl, rfl⟩ | ⟨l, l', rfl, rfl, hl⟩ <;>
    rcases hr with ⟨rfl, rfl, rfl, rfl⟩ | ⟨r, r', rfl, rfl, hr⟩
    · cases hP
    · obtain ⟨s, s', t, k1, k2, k3⟩ := hr
      cases hP; cases hP'
      rw [ND.reshape_add_one rfl, ND.reshape_add_one rfl, ND.es_ji_il_jl_get hC k1, ND.es_ji_il_jl_get hC k2]
      exact sum_congr rfl fun y _ => by rw [k3]
    · obtain ⟨p, p', q, h1, h2, h3⟩ := hl
      cases hP; cases hP'
      rw [show [a, j, 0] = [a, j] ++ [0] from rfl, show [a', j, 0] = [a', j] ++ [0] from rfl,
        ND.reshape_add_last_one rfl, ND.reshape_add_last_one rfl,
        ND.es_il_kl_ik_get (ND.matT_shape h1) hC, ND.es_il_kl_ik_get (ND.matT_shape h2) hC]
      exact sum_congr rfl fun y _ => by rw [ND.matT_get h1, ND.matT_get h2, h3]
    · obtain ⟨s, s', t, k1, k2, k3⟩ := hr
      obtain ⟨p, p', q, h1, h2, h3⟩ := hl
      cases hP; cases hP'
      rw [ND.es_ij_kj_jm_ikm_get (ND.matT_shape h1) hC k1, ND.es_ij_kj_jm_ikm_get (ND.matT_shape h2) hC k2]
      exact sum_congr rfl fun y _ => by rw [ND.matT_get h1, ND.matT_get h2, h3, k3]
  | dense X =>
    have hmu' : mu < X.shape.length := hmu
    have hP : psiDense X mu lo ro = .ok P := hP
    have hP' : psiDense X mu lo' ro' = .ok P' := hP'
    rcases hl with ⟨rfl, rfl, rfl, rfl⟩ | ⟨l, l', rfl, rfl, hl⟩ <;>
    rcases hr with ⟨rfl, rfl, rfl, rfl⟩ | ⟨r, r', rfl, rfl, hr⟩
    · cases hP
    · obtain ⟨s, s', t, k1, k2, k3⟩ := hr
      have hM : (X.matricize [0] true).shape = [(X.shape.take 1).prod, (X.shape.drop 1).prod] := by
        rw [show [0] = List.range 1 from rfl, matricize_range_true X 1 (by omega), ND.reshape_shape]
      cases hP; cases hP'
      rw [ND.reshape_add_one rfl, ND.reshape_add_one rfl, ND.matmul_get hM (ND.matT_shape k1),
        ND.matmul_get hM (ND.matT_shape k2)]
      exact sum_congr rfl fun y _ => by rw [ND.matT_get k1, ND.matT_get k2, k3]
    · obtain ⟨p, p', q, h1, h2, h3⟩ := hl
      have h1' : mu + 1 = X.shape.length := hro.1 rfl
      obtain ⟨hMs, -⟩ := matricize_last h1'
      have e : X.ndim - 1 = mu := by rw [show X.ndim = X.shape.length from rfl]; omega
      have hP : Except.ok _ = Except.ok P := hP
      have hP' : Except.ok _ = Except.ok P' := hP'
      rw [e] at hP hP'
      injection hP with hP
      injection hP' with hP'
      rw [← hP, ← hP', show [a, j, 0] = [a, j] ++ [0] from rfl, show [a', j, 0] = [a', j] ++ [0] from rfl,
        ND.reshape_add_last_one rfl, ND.reshape_add_last_one rfl,
        ND.matmul_get h1 (ND.matT_shape hMs), ND.matmul_get h2 (ND.matT_shape hMs)]
      exact sum_congr rfl fun y _ => by rw [h3]
    · obtain ⟨s, s', t, k1, k2, k3⟩ := hr
      obtain ⟨p, p', q, h1, h2, h3⟩ := hl
      cases hP; cases hP'
      rw [ND.es_ij_jkl_ml_ikm_get h1 (ND.reshape_shape _ _) k1, ND.es_ij_jkl_ml_ikm_get h2 (ND.reshape_shape _ _) k2]
      exact sum_congr rfl fun y _ => sum_congr rfl fun z _ => by rw [h3, k3]
  | tucker X =>
    have hmu' : mu < X.shape.length := hmu
    have hfl : X.factors.length = X.shape.length := by simp [Tucker.shape]
    have hU := Tucker.Valid.factor_shape hX (k := mu) (by omega)
    have hP : psiTucker X mu lo ro = .ok P := hP
    have hP' : psiTucker X mu lo' ro' = .ok P' := hP'
    have e1 : (lo.map fun l => l.dim 0).getD 1 = (lo'.map fun l => l.dim 0).getD 1 := by
      rcases hl with ⟨rfl, rfl, -, -⟩ | ⟨l, l', rfl, rfl, p, p', q, h1, h2, -⟩
      · rfl
      · simp [ND.dim, h1, h2]
    have e2 : (ro.map fun l => l.dim 0).getD 1 = (ro'.map fun l => l.dim 0).getD 1 := by
      rcases hr with ⟨rfl, rfl, -, -⟩ | ⟨l, l', rfl, rfl, p, p', q, h1, h2, -⟩
      · rfl
      · simp [ND.dim, h1, h2]
    unfold psiTucker at hP hP'
    simp only [] at hP hP'
    rw [e1, e2] at hP
    have hsh : ∀ A : ND K, X.core.reshape? [(lo'.map fun l => l.dim 0).getD 1, X.rank.getD mu 0,
        (ro'.map fun l => l.dim 0).getD 1] = .ok A → A.shape = [(lo'.map fun l => l.dim 0).getD 1, X.rank.getD mu 0,
        (ro'.map fun l => l.dim 0).getD 1] := by
      intro A hA
      unfold ND.reshape? at hA
      split_ifs at hA
      injection hA with hA
      rw [← hA, ND.reshape_shape]
    generalize X.core.reshape? _ = R at hP hP' hsh
    cases R with
    | error e => cases hP
    | ok C =>
      have hC := hsh C rfl
      simp only [] at hP hP'
      cases hQ : psiCore C lo ro with
      | error e => rw [hQ] at hP; cases hP
      | ok Q =>
        cases hQ' : psiCore C lo' ro' with
        | error e => rw [hQ'] at hP'; cases hP'
        | ok Q' =>
          rw [hQ] at hP; rw [hQ'] at hP'
          simp only [] at hP hP'
          injection hP with hP
          injection hP' with hP'
          have hs : ∀ {lo ro : Option (ND K)} {Q : ND K}, psiCore C lo ro = .ok Q →
              (∀ l, lo = some l → ∃ p q, l.shape = [p, q]) → (∀ l, ro = some l → ∃ p q, l.shape = [p, q]) →
              ∃ u w, Q.shape = [u, X.rank.getD mu 0, w] := by
            intro lo ro Q h h1 h2
            match lo, ro, h, h1, h2 with
            | none, some r, h, _, h2 =>
              obtain ⟨p, q, h2⟩ := h2 r rfl
              cases h; exact ⟨_, _, ND.es_ijk_kl_ijl_shape hC h2⟩
            | some l, none, h, h1, _ =>
              obtain ⟨p, q, h1⟩ := h1 l rfl
              cases h; exact ⟨_, _, ND.es_ij_jkl_ikl_shape (ND.matT_shape h1) hC⟩
            | some l, some r, h, h1, h2 =>
              obtain ⟨p, q, h1⟩ := h1 l rfl
              obtain ⟨p', q', h2⟩ := h2 r rfl
              cases h; exact ⟨_, _, ND.es_ij_jkl_lm_ikm_shape (ND.matT_shape h1) hC h2⟩
          have hopt : ∀ {l l' : Option (ND K)} {a a' : ℕ}, OptCol (.tucker X) l a l' a' →
              (∀ m, l = some m → ∃ p q, m.shape = [p, q]) ∧ (∀ m, l' = some m → ∃ p q, m.shape = [p, q]) := by
            intro l l' a a' h
            rcases h with ⟨rfl, rfl, -, -⟩ | ⟨l, l', rfl, rfl, p, p', q, h1, h2, -⟩
            · simp
            · exact ⟨fun m hm => by cases hm; exact ⟨_, _, h1⟩, fun m hm => by cases hm; exact ⟨_, _, h2⟩⟩
          obtain ⟨u, w, hq⟩ := hs hQ (hopt hl).1 (hopt hr).1
          obtain ⟨u', w', hq'⟩ := hs hQ' (hopt hl).2 (hopt hr).2
          rw [← hP, ← hP', ND.es_ijk_jl_ilk_get hq hU, ND.es_ijk_jl_ilk_get hq' hU]
          exact sum_congr rfl fun y _ => by
            rw [psiCore_col hC (.tucker X) (Or.inr ⟨_, rfl⟩) hl hr hQ hQ' y]

end

section
variable [CommRing K]

/-- `D'` contracts `X` with the columns `a..b` (user's order) of `D`. -/
structure SliceOn (env : Env K) (X : Leaf K) (D D' : DRM K) (a b : List ℕ) : Prop where
  full : D.Accepts X
  part : D'.Accepts X
  tr : D'.transpose = D.transpose
  rank : ∀ k < X.shape.length - 1, (rev? D.transpose D'.rank).getD k 0 = b.getD k 0 - a.getD k 0
  le1 : ∀ k < X.shape.length - 1, a.getD k 0 ≤ b.getD k 0
  le2 : ∀ k < X.shape.length - 1, b.getD k 0 ≤ (rev? D.transpose D.rank).getD k 0
  contr : ∀ k < X.shape.length - 1, (D'.sketchD env X).getD k (ND.zeros [])
    = X.sliceContr ((D.sketchD env X).getD k (ND.zeros [])) (a.getD k 0) (b.getD k 0)

theorem shapeL_two {X : Leaf K} {k r : ℕ} {M : ND K} (h : ShapeL X k r M) : ∃ p q, M.shape = [p, q] := by
  cases X with
  | tt X => obtain ⟨x, _, h⟩ := h; exact ⟨_, _, h⟩
  | _ => exact ⟨_, _, h⟩

theorem shapeR_two {X : Leaf K} {k r : ℕ} {M : ND K} (h : ShapeR X k r M) : ∃ p q, M.shape = [p, q] := by
  cases X with
  | tt X => obtain ⟨x, _, h⟩ := h; exact ⟨_, _, h⟩
  | _ => exact ⟨_, _, h⟩

theorem left_two {env : Env K} {X : Leaf K} {l : DRM K} (hl : l.Accepts X) (hlt : l.transpose = false)
    {k : ℕ} (hk : k < X.shape.length - 1) :
    ∃ p q, ((l.sketchD env X).getD k (ND.zeros [])).shape = [p, q] :=
  shapeL_two ((left_spec env hl hlt).2 k hk).shapeL

theorem right_two {env : Env K} {X : Leaf K} {r : DRM K} (hr : r.Accepts X) (hrt : r.transpose = true)
    {k : ℕ} (hk : k < X.shape.length - 1) :
    ∃ p q, ((r.sketchD env X).getD k (ND.zeros [])).shape = [p, q] :=
  shapeR_two (shapeR_of_T hr.valid (by omega) ((right_raw env hr hrt).2 k hk))

section
variable {env : Env K} {X : Leaf K} {l l' r r' : DRM K} {l1 l2 r1 r2 : List ℕ}

theorem oSk_block (hl : SliceOn env X l l' l1 l2) (hr : SliceOn env X r r' r1 r2)
    (hlt : l.transpose = false) (hrt : r.transpose = true) {mu : ℕ} (hmu : mu < X.shape.length - 1)
    {a b : ℕ} (ha : l1.getD mu 0 + a < l2.getD mu 0) (hb : r1.getD mu 0 + b < r2.getD mu 0) :
    (oSk env l' r' X mu).get [a, b] = (oSk env l r X mu).get [l1.getD mu 0 + a, r1.getD mu 0 + b] := by
  obtain ⟨p, q, e⟩ := left_two (env := env) hl.full hlt hmu
  obtain ⟨p', q', e'⟩ := right_two (env := env) hr.full hrt hmu
  unfold oSk
  rw [hl.contr mu hmu, hr.contr mu hmu]
  exact omega_col (by omega) hl.full.valid (sameCol_slice e ha) (sameCol_slice e' hb)

theorem pSk_block (hl : SliceOn env X l l' l1 l2) (hr : SliceOn env X r r' r1 r2)
    (hlt : l.transpose = false) (hrt : r.transpose = true)
    (hr1 : r1.length = X.shape.length - 1) (hr2 : r2.length = X.shape.length - 1)
    {mu : ℕ} (hmu : mu < X.shape.length)
    {a j b : ℕ} (ha : (0 :: l1).getD mu 0 + a < (1 :: l2).getD mu 0)
    (hb : (r1 ++ [0]).getD mu 0 + b < (r2 ++ [1]).getD mu 0) (hj : j < X.shape.getD mu 0) :
    (pSk env l' r' X mu).get [a, j, b]
      = (pSk env l r X mu).get [(0 :: l1).getD mu 0 + a, j, (r1 ++ [0]).getD mu 0 + b] := by
  have hd := hl.full.dim
  have hrlen : r.rank.reverse.length = X.shape.length - 1 := by
    rw [List.length_reverse, hr.full.wf.rankLen, hr.full.shape]
  have hrlen' : r'.rank.reverse.length = X.shape.length - 1 := by
    rw [List.length_reverse, hr.part.wf.rankLen, hr.part.shape]
  have h1 := (parts_sk (env := env) hl.full hr.full hlt hrt).1.psi mu hmu
  have h2 := (parts_sk (env := env) hl.part hr.part (by rw [hl.tr, hlt]) (by rw [hr.tr, hrt])).1.psi mu hmu
  rw [psiShape_eq hrlen hmu] at h1
  rw [psiShape_eq hrlen' hmu] at h2
  have lrk : ∀ k < X.shape.length - 1, l'.rank.getD k 0 = l2.getD k 0 - l1.getD k 0 := by
    intro k hk; have := hl.rank k hk; rw [hlt] at this; exact this
  have rrk : ∀ k < X.shape.length - 1, r'.rank.reverse.getD k 0 = r2.getD k 0 - r1.getD k 0 := by
    intro k hk; have := hr.rank k hk; rw [hrt] at this; exact this
  have lle : ∀ k < X.shape.length - 1, l2.getD k 0 ≤ l.rank.getD k 0 := by
    intro k hk; have := hl.le2 k hk; rw [hlt] at this; exact this
  have rle : ∀ k < X.shape.length - 1, r2.getD k 0 ≤ r.rank.reverse.getD k 0 := by
    intro k hk; have := hr.le2 k hk; rw [hrt] at this; exact this
  have rin : ∀ (s : List ℕ) (c : ℕ), s.length = X.shape.length - 1 → mu < X.shape.length - 1 →
      (s ++ [c]).getD mu 0 = s.getD mu 0 := fun s c hs h => List.getD_append _ _ _ _ (by omega)
  have rout : ∀ (s : List ℕ) (c : ℕ), s.length = X.shape.length - 1 → ¬ mu < X.shape.length - 1 →
      (s ++ [c]).getD mu 0 = c := fun s c hs h => by
    rw [List.getD_append_right _ _ _ _ (by omega), show mu - s.length = 0 by omega]; rfl
  refine psi_col (X := X) hmu hl.full.valid hd ?_ ?_ ?_ ?_ ?_ ?_ ?_ ?_ hj h2 h1
  · unfold loAt; split_ifs with h <;> simp <;> omega
  · unfold roAt; split_ifs with h <;> simp <;> omega
  · unfold loAt
    cases mu with
    | zero =>
      have : a = 0 := by simpa using ha
      subst this
      left; exact ⟨rfl, rfl, rfl, rfl⟩
    | succ k =>
      right
      obtain ⟨p, q, e⟩ := left_two (env := env) hl.full hlt (k := k) (by omega)
      rw [if_pos (by omega), if_pos (by omega), show k + 1 - 1 = k from rfl]
      refine ⟨_, _, rfl, rfl, ?_⟩
      rw [hl.contr k (by omega)]
      exact sameCol_slice e ha
  · unfold roAt
    by_cases h : mu < X.shape.length - 1
    · right
      obtain ⟨p, q, e⟩ := right_two (env := env) hr.full hrt h
      rw [if_pos h, if_pos h, rin _ _ hr1 h]
      refine ⟨_, _, rfl, rfl, ?_⟩
      rw [hr.contr mu h]
      rw [rin _ _ hr1 h, rin _ _ hr2 h] at hb
      exact sameCol_slice e hb
    · left
      rw [rout _ _ hr1 h, rout _ _ hr2 h] at hb
      rw [if_neg h, if_neg h, rout _ _ hr1 h]
      exact ⟨rfl, rfl, by omega, by omega⟩
  · cases mu with
    | zero => simpa using ha
    | succ k =>
      have := lrk k (by omega)
      simp only [List.getD_cons_succ] at ha ⊢
      omega
  · cases mu with
    | zero => simpa using ha
    | succ k =>
      have := lle k (by omega)
      simp only [List.getD_cons_succ] at ha ⊢
      omega
  · by_cases h : mu < X.shape.length - 1
    · rw [rin _ _ hr1 h, rin _ _ hr2 h] at hb
      rw [rin _ _ hrlen' h, rrk mu h]; omega
    · rw [rout _ _ hr1 h, rout _ _ hr2 h] at hb
      rw [rout _ _ hrlen' h]; omega
  · by_cases h : mu < X.shape.length - 1
    · rw [rin _ _ hr1 h, rin _ _ hr2 h] at hb
      have := rle mu h
      rw [rin _ _ hrlen h, rin _ _ hr1 h]; omega
    · rw [rout _ _ hr1 h, rout _ _ hr2 h] at hb
      rw [rout _ _ hrlen h, rout _ _ hr1 h]; omega

end

/-- `B` is the block with left columns `l1..l2` and right columns `r1..r2` of `C`. -/
structure IsBlock (B C : Container K) (sh l1 l2 r1 r2 : List ℕ) : Prop where
  psiLen : B.psi.length = sh.length
  omegaLen : B.omega.length = sh.length - 1
  psiShape : ∀ mu < sh.length, (B.psi.getD mu (ND.zeros [])).shape
    = [(1 :: l2).getD mu 0 - (0 :: l1).getD mu 0, sh.getD mu 0, (r2 ++ [1]).getD mu 0 - (r1 ++ [0]).getD mu 0]
  omegaShape : ∀ mu < sh.length - 1, (B.omega.getD mu (ND.zeros [])).shape
    = [l2.getD mu 0 - l1.getD mu 0, r2.getD mu 0 - r1.getD mu 0]
  psi : ∀ mu < sh.length, ∀ a j b, (0 :: l1).getD mu 0 + a < (1 :: l2).getD mu 0 → j < sh.getD mu 0 →
    (r1 ++ [0]).getD mu 0 + b < (r2 ++ [1]).getD mu 0 → (B.psi.getD mu (ND.zeros [])).get [a, j, b]
      = (C.psi.getD mu (ND.zeros [])).get [(0 :: l1).getD mu 0 + a, j, (r1 ++ [0]).getD mu 0 + b]
  omega : ∀ mu < sh.length - 1, ∀ a b, l1.getD mu 0 + a < l2.getD mu 0 → r1.getD mu 0 + b < r2.getD mu 0 →
    (B.omega.getD mu (ND.zeros [])).get [a, b]
      = (C.omega.getD mu (ND.zeros [])).get [l1.getD mu 0 + a, r1.getD mu 0 + b]

theorem contSum_block {env : Env K} {ts : List (Leaf K)} {sh : List ℕ} {l l' r r' : DRM K}
    {l1 l2 r1 r2 : List ℕ} (hsh : ∀ t ∈ ts, t.shape = sh)
    (hlt : l.transpose = false) (hrt : r.transpose = true)
    (hl : ∀ t ∈ ts, SliceOn env t l l' l1 l2) (hr : ∀ t ∈ ts, SliceOn env t r r' r1 r2)
    (hr1 : r1.length = sh.length - 1) (hr2 : r2.length = sh.length - 1)
    (llen : l.rank.length = sh.length - 1) (rlen : r.rank.reverse.length = sh.length - 1)
    (llen' : l'.rank.length = sh.length - 1) (rlen' : r'.rank.reverse.length = sh.length - 1)
    (lrk : ∀ k < sh.length - 1, l'.rank.getD k 0 = l2.getD k 0 - l1.getD k 0)
    (rrk : ∀ k < sh.length - 1, r'.rank.reverse.getD k 0 = r2.getD k 0 - r1.getD k 0)
    (lle : ∀ k < sh.length - 1, l2.getD k 0 ≤ l.rank.getD k 0)
    (rle : ∀ k < sh.length - 1, r2.getD k 0 ≤ r.rank.reverse.getD k 0) :
    IsBlock (contSum env l' r' sh ts) (contSum env l r sh ts) sh l1 l2 r1 r2 := by
  have rin : ∀ (s : List ℕ) (c mu : ℕ), s.length = sh.length - 1 → mu < sh.length - 1 →
      (s ++ [c]).getD mu 0 = s.getD mu 0 := fun s c mu hs h => List.getD_append _ _ _ _ (by omega)
  have rout : ∀ (s : List ℕ) (c mu : ℕ), s.length = sh.length - 1 → mu < sh.length → ¬ mu < sh.length - 1 →
      (s ++ [c]).getD mu 0 = c := fun s c mu hs h1 h => by
    rw [List.getD_append_right _ _ _ _ (by omega), show mu - s.length = 0 by omega]; rfl
  have hpsi : ∀ (u v : DRM K) mu, mu < sh.length → ((contSum env u v sh ts).psi.getD mu (ND.zeros []))
      = ND.ofFn (psiShape sh u.rank v.rank.reverse mu) fun i => (ts.map fun t => (pSk env u v t mu).get i).sum :=
    fun u v mu h => getD_map_range _ _ _ _ h
  have hom : ∀ (u v : DRM K) mu, mu < sh.length - 1 → ((contSum env u v sh ts).omega.getD mu (ND.zeros []))
      = ND.ofFn [u.rank.getD mu 0, v.rank.reverse.getD mu 0] fun i => (ts.map fun t => (oSk env u v t mu).get i).sum :=
    fun u v mu h => getD_map_range _ _ _ _ h
  have d0 : ∀ mu < sh.length, (1 :: l'.rank).getD mu 0 = (1 :: l2).getD mu 0 - (0 :: l1).getD mu 0 := by
    intro mu hmu
    cases mu with
    | zero => rfl
    | succ k => exact lrk k (by omega)
  have d2 : ∀ mu < sh.length, (r'.rank.reverse ++ [1]).getD mu 0 = (r2 ++ [1]).getD mu 0 - (r1 ++ [0]).getD mu 0 := by
    intro mu hmu
    by_cases h : mu < sh.length - 1
    · rw [rin _ _ _ rlen' h, rin _ _ _ hr1 h, rin _ _ _ hr2 h, rrk mu h]
    · rw [rout _ _ _ rlen' hmu h, rout _ _ _ hr1 hmu h, rout _ _ _ hr2 hmu h]
  refine ⟨by simp [contSum, contOf], by simp [contSum, contOf], fun mu hmu => ?_, fun mu hmu => ?_,
    fun mu hmu a j b ha hj hb => ?_, fun mu hmu a b ha hb => ?_⟩
  · rw [hpsi _ _ _ hmu, ND.ofFn_shape, psiShape_eq rlen' hmu, d0 mu hmu, d2 mu hmu]
  · rw [hom _ _ _ hmu, ND.ofFn_shape, lrk mu hmu, rrk mu hmu]
  · rw [hpsi _ _ _ hmu, hpsi _ _ _ hmu, psiShape_eq rlen' hmu, psiShape_eq rlen hmu, ND.ofFn_get, ND.ofFn_get]
    · refine congrArg List.sum (List.map_congr_left fun t ht => ?_)
      have e := hsh t ht
      exact pSk_block (hl t ht) (hr t ht) hlt hrt (by rw [e, hr1]) (by rw [e, hr2]) (by rw [e]; exact hmu) ha hb
        (by rw [e]; exact hj)
    · refine ⟨?_, hj, ?_, trivial⟩
      · cases mu with
        | zero => simpa using ha
        | succ k =>
          have := lle k (by omega)
          simp only [List.getD_cons_succ] at ha ⊢
          omega
      · by_cases h : mu < sh.length - 1
        · have := rle mu h
          rw [rin _ _ _ hr1 h, rin _ _ _ hr2 h] at hb
          rw [rin _ _ _ hr1 h, rin _ _ _ rlen h]; omega
        · rw [rout _ _ _ hr1 hmu h, rout _ _ _ hr2 hmu h] at hb
          rw [rout _ _ _ hr1 hmu h, rout _ _ _ rlen hmu h]; omega
    · refine ⟨?_, hj, ?_, trivial⟩
      · rw [d0 mu hmu]; omega
      · rw [d2 mu hmu]; omega
  · rw [hom _ _ _ hmu, hom _ _ _ hmu, ND.ofFn_get, ND.ofFn_get]
    · refine congrArg List.sum (List.map_congr_left fun t ht => ?_)
      exact oSk_block (hl t ht) (hr t ht) hlt hrt (by rw [hsh t ht]; exact hmu) ha hb
    · have := lle mu hmu
      have := rle mu hmu
      exact ⟨by omega, by omega, trivial⟩
    · exact ⟨by rw [lrk mu hmu]; omega, by rw [rrk mu hmu]; omega, trivial⟩

end
end TTS
