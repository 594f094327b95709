import Verif.Proofs.FloatStream

/-! Omega and Psi of one tensor in floating point arithmetic. -/

namespace TTS
open Finset ND

theorem NN.transpose {u : ℝ} {n : ℕ} {C A M : ND ℝ} (h : NN u n C A M) (p : List ℕ) :
    NN u n (C.transpose p) (A.transpose p) (M.transpose p) := NDNear.transpose h p

theorem NN.matricize {u : ℝ} {n : ℕ} {C A M : ND ℝ} (h : NN u n C A M) (mode : List ℕ) (b : Bool) :
    NN u n (C.matricize mode b) (A.matricize mode b) (M.matricize mode b) := by
  have h1 := h.transpose (mode ++ (List.range A.ndim).filter (fun i => i ∉ mode))
  have h' : NDNear _ _ _ _ := h
  have h1' : NDNear _ _ _ _ := h1
  unfold ND.matricize
  rw [h'.ndim_eq, h'.ndim_eq']
  simp only [h1'.1, h1'.2.1]
  exact h1.reshape _

theorem NN.shape {u : ℝ} {n : ℕ} {C A M : ND ℝ} (h : NN u n C A M) : C.shape = A.shape ∧ M.shape = A.shape :=
  ⟨h.1, h.2.1⟩

theorem NN.mulCols {u : ℝ} (hu : 0 ≤ u) {n : ℕ} {C A M D : ND ℝ} (h : NN u n C A M) {v : List ℝ}
    (hD : FlMulCols u C v D) : NN u (n + 1) D (A.mulCols v) (M.mulCols (v.map (|·|))) := by
  have hv : ∀ k, (v.map (|·|)).getD k 0 = |v.getD k 0| := by
    intro k
    by_cases hk : k < v.length
    · rw [getD_map_lt _ _ k hk 0]
    · rw [List.getD_eq_default _ _ (by simpa using hk), List.getD_eq_default _ _ (by omega), abs_zero]
  have hp : 1 ≤ (1 + u) ^ n := one_le_pow_u hu n
  have h' : NDNear _ _ _ _ := h
  have := NDNear.op (n := 1) (A := A.mulCols v) (M := M.mulCols (v.map (|·|))) hu hD (p := (1 + u) ^ n) ?_
    fun i => ?_
  · rw [← pow_add, Nat.add_comm] at this
    exact this
  · unfold ND.mulCols
    rw [h'.dim_eq, h'.dim_eq, h'.dim_eq', h'.dim_eq']
    refine ⟨rfl, rfl, fun i => ?_⟩
    simp only [ofFn_get']
    split
    · rw [hv]
      have := (h'.2.2 i).mul hp le_rfl (Near.rfl' (v.getD (i.getD 1 0) 0))
      rwa [mul_one] at this
    · constructor <;> simp
  · unfold ND.mulCols
    have e : ∀ k, C.abs.dim k = A.dim k := h'.dim_eq
    rw [e, e, h'.dim_eq', h'.dim_eq']
    simp only [ofFn_get']
    split
    · rw [hv, abs_get, ← mul_assoc]
      exact mul_le_mul_of_nonneg_right (h'.2.2 i).abs_le (abs_nonneg _)
    · simp

theorem omega_near {u : ℝ} (hu : 0 ≤ u) {X : Leaf ℝ} {mu : ℕ} (hmu : mu + 1 < X.shape.length) (hX : X.Valid)
    {lr rr nl nr : ℕ} {l' l ml r' r mr C : ND ℝ}
    (hl : ShapeL X (mu + 1) lr l) (hr : ShapeR X (mu + 1) rr r) (kl : NN u nl l' l ml) (kr : NN u nr r' r mr)
    (h : FlOmegaLeaf u X mu l' r' C) :
    NN u (nl + nr + X.omegaRounds mu) C (omegaLeaf X mu l r) (omegaLeaf X.abs mu ml mr) := by
  cases X with
  | sparse X =>
    obtain ⟨lv, h1, h2⟩ := h
    have e : X.abs.entries.map Prod.snd = (X.entries.map Prod.snd).map (|·|) := by
      simp [Sparse.abs, Function.comp_def]
    show NN u _ _ _ ((ml.mulCols (X.abs.entries.map Prod.snd)).matmul mr.matT)
    rw [e]
    refine ((kl.mulCols hu h1).mm hu kr.matT h2 (t := X.nnz) ?_).mono hu ?_
    · show l.dim 1 = _
      rw [ND.dim, show l.shape = _ from hl]; rfl
    · show _ ≤ nl + nr + (X.nnz + 1)
      omega
  | tt X =>
    obtain ⟨x, hx, hl⟩ := hl
    refine (kl.matT.mm hu kr h (t := X.rank.getD mu 0) ?_).mono hu le_rfl
    obtain ⟨y, hc, h0, h1⟩ := TT.Valid.cores hX
    have hlen : X.cores.length = X.shape.length := by simp [TT.shape]
    have hmu' : mu + 1 < X.shape.length := hmu
    have hxy : x = y (mu + 1) := by
      have hy := hc.chain (mu + 1) (by omega)
      rw [h0] at hy
      refine TTChain.unique ?_ hx hy
      intro hc
      have := congrArg List.length hc
      simp at this
      rw [this] at hlen; simp at hlen; omega
    rw [ND.dim, ND.matT_shape hl, TT.rank_getD hc (by omega), ← hxy]
    rfl
  | cp X =>
    refine (kl.matT.mm hu kr h (t := X.rank) ?_).mono hu le_rfl
    rw [ND.dim, ND.matT_shape hl]; rfl
  | dense X =>
    obtain ⟨A, h1, h2⟩ := h
    refine ((kl.mm hu ((NN.rfl' X).matricize _ _) h1 (t := (X.shape.take (mu + 1)).prod) ?_).mm hu kr.matT h2
      (t := (X.shape.drop (mu + 1)).prod) ?_).mono hu ?_
    · rw [ND.dim, show l.shape = _ from hl]; rfl
    · show ((X.matricize (List.range (mu + 1)) true).dim 1) = _
      rw [matricize_range_true _ _ (by exact hmu.le)]; rfl
    · show _ ≤ nl + nr + (_ + _)
      omega
  | tucker X =>
    obtain ⟨A, h1, h2⟩ := h
    have hrl : X.rank.length = X.shape.length := by simp [Tucker.rank, Tucker.shape]
    have hmu' : mu + 1 < X.shape.length := hmu
    refine ((kl.matT.mm hu ((NN.rfl' X.core).matricize _ _) h1 (t := (X.rank.take (mu + 1)).prod) ?_).mm hu kr h2
      (t := (X.rank.drop (mu + 1)).prod) ?_).mono hu ?_
    · rw [ND.dim, ND.matT_shape hl]; rfl
    · show ((X.core.matricize (List.range (mu + 1)) true).dim 1) = _
      rw [matricize_range_true _ _ (by rw [hX.2]; omega), hX.2]; rfl
    · show _ ≤ nl + nr + (_ + _)
      omega

/-- approximations of an optional argument -/
def OptNN (u : ℝ) (n : ℕ) : Option (ND ℝ) → Option (ND ℝ) → Option (ND ℝ) → Prop
  | none, none, none => True
  | some C, some A, some M => NN u n C A M
  | _, _, _ => False

theorem OptNN.of_none {u : ℝ} {n : ℕ} {c m : Option (ND ℝ)} (h : OptNN u n c none m) : c = none ∧ m = none := by
  cases c <;> cases m <;> first | exact ⟨rfl, rfl⟩ | cases h

theorem OptNN.of_some {u : ℝ} {n : ℕ} {A : ND ℝ} {c m : Option (ND ℝ)} (h : OptNN u n c (some A) m) :
    ∃ C M, c = some C ∧ m = some M ∧ NN u n C A M := by
  cases c <;> cases m <;> first | exact ⟨_, _, rfl, rfl, h⟩ | cases h

theorem psiSparse_near {u : ℝ} (hu : 0 ≤ u) {X : Sparse ℝ} {mu lr rr nl nr : ℕ} (hd : 2 ≤ X.shape.length)
    {lo' lo lm ro' ro rm : Option (ND ℝ)} {C : ND ℝ} (hs : PsiShapes (.sparse X) mu lr rr lo ro)
    (kl : OptNN u nl lo' lo lm) (kr : OptNN u nr ro' ro rm)
    (h : FlPsiSparse u X mu [lr, X.shape.getD mu 0, rr] lo' ro' C) :
    ∃ A M, psiSparse X mu [lr, X.shape.getD mu 0, rr] lo ro = .ok A ∧
      psiSparse X.abs mu [lr, X.shape.getD mu 0, rr] lm rm = .ok M ∧
      NN u (nl + nr + (X.nnz + 1)) C A M := by
  obtain ⟨E, F, hE, hF, hC⟩ := h
  have hmask : ∀ j, X.abs.mask mu j = X.mask mu j := by
    intro j
    unfold Sparse.mask
    rw [Sparse.abs_row, show X.abs.nnz = X.nnz by simp [Sparse.nnz, Sparse.abs]]
  have hv : ∀ e, (X.abs.entries.map Prod.snd).getD e 0 = |(X.entries.map Prod.snd).getD e 0| := by
    intro e
    have h1 : X.abs.entries.map Prod.snd = (X.entries.map Prod.snd).map (|·|) := by
      simp [Sparse.abs, Function.comp_def]
    rw [h1]
    by_cases hk : e < (X.entries.map Prod.snd).length
    · rw [getD_map_lt _ _ e hk 0]
    · rw [List.getD_eq_default _ _ (by simpa using hk), List.getD_eq_default _ _ (by omega), abs_zero]
  have key : ∀ (g' g gm gf : ℕ → ℕ → ℕ → ℝ),
      (∀ j, psiSparseSlice X mu j lo' ro' = .ok (g' j)) → (∀ j, psiSparseSlice X mu j lo ro = .ok (g j)) →
      (∀ j, psiSparseSlice X.abs mu j lm rm = .ok (gm j)) →
      (∀ j, psiSparseSlice X.abs mu j (lo'.map ND.abs) (ro'.map ND.abs) = .ok (gf j)) →
      (∀ j a b, Near ((1 + u) ^ (nl + nr)) (g' j a b) (g j a b) (gm j a b)) →
      (∀ j a b, gf j a b ≤ (1 + u) ^ (nl + nr) * gm j a b) →
      ∃ A M, psiSparse X mu [lr, X.shape.getD mu 0, rr] lo ro = .ok A ∧
        psiSparse X.abs mu [lr, X.shape.getD mu 0, rr] lm rm = .ok M ∧
        NN u (nl + nr + (X.nnz + 1)) C A M := by
    intro g' g gm gf e1 e2 e3 e4 k1 k2
    refine ⟨_, _, psiSparse_ok X mu _ lo ro g fun j _ => e2 j, psiSparse_ok X.abs mu _ lm rm gm fun j _ => e3 j, ?_⟩
    have hE' := hE.symm.trans (psiSparse_ok X mu _ lo' ro' g' fun j _ => e1 j)
    have hF' := hF.symm.trans (psiSparse_ok X.abs mu _ _ _ gf fun j _ => e4 j)
    injection hE' with hE'
    injection hF' with hF'
    subst hE' hF'
    show NDNear _ _ _ _
    rw [Nat.add_comm, pow_add]
    refine NDNear.op hu hC ⟨rfl, rfl, fun i => ?_⟩ fun i => ?_
    · simp only [ofFn_get']
      split
      · split
        · exact k1 _ _ _
        · constructor <;> simp
      · constructor <;> simp
    · simp only [ofFn_get']
      split
      · split
        · exact k2 _ _ _
        · simp
      · simp
  have hsum : ∀ (l : List ℕ) (f g m : ℕ → ℝ) (n : ℕ), (∀ e, Near ((1 + u) ^ n) (f e) (g e) (m e)) →
      Near ((1 + u) ^ n) (l.map f).sum (l.map g).sum (l.map m).sum := by
    intro l f g m n h
    induction l with
    | nil => constructor <;> simp
    | cons a l ih => simp only [List.map_cons, List.sum_cons]; exact (h a).add ih
  have hsum2 : ∀ (l : List ℕ) (f m : ℕ → ℝ) (n : ℕ), (∀ e, f e ≤ (1 + u) ^ n * m e) →
      (l.map f).sum ≤ (1 + u) ^ n * (l.map m).sum := by
    intro l f m n h
    induction l with
    | nil => simp
    | cons a l ih =>
      simp only [List.map_cons, List.sum_cons, mul_add]
      exact add_le_add (h a) ih
  have hmono : ∀ {v x a : ℝ} {n m : ℕ}, n ≤ m → Near ((1 + u) ^ n) v x a → Near ((1 + u) ^ m) v x a :=
    fun hnm h => h.mono (pow_le_pow_right₀ (by linarith) hnm)
  rcases hs.left with ⟨h0, rfl, rfl⟩ | ⟨h0, l, rfl, hl⟩ <;>
  rcases hs.right with ⟨h1, rfl, rfl⟩ | ⟨h1, r, rfl, hr⟩
  · have h1' : mu + 1 = X.shape.length := h1
    omega
  · obtain ⟨rfl, rfl⟩ := kl.of_none
    obtain ⟨r', mr, rfl, rfl, kr⟩ := kr.of_some
    have kr' : NDNear _ _ _ _ := kr
    have near : ∀ b e, Near ((1 + u) ^ (nl + nr)) ((X.entries.map Prod.snd).getD e 0 * r'.get [b, e])
        ((X.entries.map Prod.snd).getD e 0 * r.get [b, e])
        ((X.abs.entries.map Prod.snd).getD e 0 * mr.get [b, e]) := by
      intro b e
      rw [hv]
      have := (Near.rfl' ((X.entries.map Prod.snd).getD e 0)).mul le_rfl (one_le_pow_u hu nr) (kr'.2.2 [b, e])
      rw [one_mul] at this
      exact hmono (by omega) this
    have e : ∀ (Y : Sparse ℝ) (r : ND ℝ) j, psiSparseSlice Y mu j none (some r) = .ok fun _ b =>
        ((Y.mask mu j).map fun e => (Y.entries.map Prod.snd).getD e 0 * r.get [b, e]).sum := by
      intro Y r j
      unfold psiSparseSlice
      rw [if_pos h0]
    refine key _ _ _ _ (e X r') (e X r) (e X.abs mr) (e X.abs r'.abs) (fun j a b => ?_) fun j a b => ?_
    · rw [hmask]
      exact hsum _ _ _ _ _ fun e => near b e
    · rw [hmask]
      refine hsum2 _ _ _ _ fun e => ?_
      have := (near b e).abs_le
      rw [abs_mul] at this
      rw [hv, abs_get, ← hv e]
      rw [← hv e] at this
      exact this
  · obtain ⟨rfl, rfl⟩ := kr.of_none
    obtain ⟨l', ml, rfl, rfl, kl⟩ := kl.of_some
    have kl' : NDNear _ _ _ _ := kl
    have h1' : mu + 1 = X.shape.length := h1
    have near : ∀ b e, Near ((1 + u) ^ (nl + nr)) (l'.get [b, e] * (X.entries.map Prod.snd).getD e 0)
        (l.get [b, e] * (X.entries.map Prod.snd).getD e 0)
        (ml.get [b, e] * (X.abs.entries.map Prod.snd).getD e 0) := by
      intro b e
      rw [hv]
      have := (kl'.2.2 [b, e]).mul (one_le_pow_u hu nl) le_rfl (Near.rfl' ((X.entries.map Prod.snd).getD e 0))
      rw [mul_one] at this
      exact hmono (by omega) this
    have e : ∀ (Y : Sparse ℝ) (l : ND ℝ) j, Y.shape = X.shape → psiSparseSlice Y mu j (some l) none = .ok fun a _ =>
        ((Y.mask mu j).map fun e => l.get [a, e] * (Y.entries.map Prod.snd).getD e 0).sum := by
      intro Y l j hY
      unfold psiSparseSlice
      rw [if_neg (by omega), if_pos (by rw [hY]; omega)]
    refine key _ _ _ _ (fun j => e X l' j rfl) (fun j => e X l j rfl) (fun j => e X.abs ml j rfl)
      (fun j => e X.abs l'.abs j rfl) (fun j a b => ?_) fun j a b => ?_
    · rw [hmask]
      exact hsum _ _ _ _ _ fun e => near a e
    · rw [hmask]
      refine hsum2 _ _ _ _ fun e => ?_
      have := (near a e).abs_le
      rw [abs_mul, ← hv e] at this
      rw [abs_get]
      exact this
  · obtain ⟨l', ml, rfl, rfl, kl⟩ := kl.of_some
    obtain ⟨r', mr, rfl, rfl, kr⟩ := kr.of_some
    have kl' : NDNear _ _ _ _ := kl
    have kr' : NDNear _ _ _ _ := kr
    have h1' : mu + 1 < X.shape.length := h1
    have near : ∀ a b e, Near ((1 + u) ^ (nl + nr))
        (l'.get [a, e] * (X.entries.map Prod.snd).getD e 0 * r'.get [b, e])
        (l.get [a, e] * (X.entries.map Prod.snd).getD e 0 * r.get [b, e])
        (ml.get [a, e] * (X.abs.entries.map Prod.snd).getD e 0 * mr.get [b, e]) := by
      intro a b e
      rw [hv]
      have := (kl'.2.2 [a, e]).mul (one_le_pow_u hu nl) le_rfl (Near.rfl' ((X.entries.map Prod.snd).getD e 0))
      rw [mul_one] at this
      have := this.mul (one_le_pow_u hu nl) (one_le_pow_u hu nr) (kr'.2.2 [b, e])
      rw [← pow_add] at this
      exact this
    have e : ∀ (Y : Sparse ℝ) (l r : ND ℝ) j, Y.shape = X.shape → psiSparseSlice Y mu j (some l) (some r)
        = .ok fun a b => ((Y.mask mu j).map fun e =>
          l.get [a, e] * (Y.entries.map Prod.snd).getD e 0 * r.get [b, e]).sum := by
      intro Y l r j hY
      unfold psiSparseSlice
      rw [if_neg (by omega), if_neg (by rw [hY]; omega)]
    refine key _ _ _ _ (fun j => e X l' r' j rfl) (fun j => e X l r j rfl) (fun j => e X.abs ml mr j rfl)
      (fun j => e X.abs l'.abs r'.abs j rfl) (fun j a b => ?_) fun j a b => ?_
    · rw [hmask]
      exact hsum _ _ _ _ _ fun e => near a b e
    · rw [hmask]
      refine hsum2 _ _ _ _ fun e => ?_
      have := (near a b e).abs_le
      rw [abs_mul, abs_mul, ← hv e] at this
      rw [abs_get, abs_get]
      exact this

theorem psiCore_near {u : ℝ} (hu : 0 ≤ u) {a b c nl nr na : ℕ} {A' A MA : ND ℝ}
    (hA : A.shape = [a, b, c]) (ka : NN u na A' A MA)
    {lo' lo lm ro' ro rm : Option (ND ℝ)} {C : ND ℝ} (hne : lo = none → ro = none → False)
    (hl : ∀ l, lo = some l → ∃ x, l.shape = [a, x]) (hr : ∀ r, ro = some r → ∃ x, r.shape = [c, x])
    (hl0 : lo = none → a = 1) (hr0 : ro = none → c = 1)
    (kl : OptNN u nl lo' lo lm) (kr : OptNN u nr ro' ro rm) (h : FlPsiCore u A' lo' ro' C) :
    ∃ P M, psiCore A lo ro = .ok P ∧ psiCore MA lm rm = .ok M ∧ NN u (nl + nr + (na + (a * c + 1))) C P M ∧
      ∃ x y, P.shape = [x, b, y] := by
  cases lo with
  | none =>
    obtain ⟨rfl, rfl⟩ := kl.of_none
    cases ro with
    | none => exact (hne rfl rfl).elim
    | some r =>
      obtain ⟨r', mr, rfl, rfl, kr⟩ := kr.of_some
      obtain ⟨x, hr⟩ := hr r rfl
      refine ⟨_, _, rfl, rfl, ?_, _, _, ND.es_ijk_kl_ijl_shape hA hr⟩
      have := NN.e2 hu ka kr h (t := c)
        (by simp [einsumTerms, lbSummed, lbDim, lbGet?, hA, hr, -List.getD_eq_getElem?_getD])
      refine this.mono hu ?_
      rw [hl0 rfl]; omega
  | some l =>
    obtain ⟨l', ml, rfl, rfl, kl⟩ := kl.of_some
    obtain ⟨x, hl⟩ := hl l rfl
    have hlT := ND.matT_shape hl
    cases ro with
    | none =>
      obtain ⟨rfl, rfl⟩ := kr.of_none
      refine ⟨_, _, rfl, rfl, ?_, _, _, ND.es_ij_jkl_ikl_shape hlT hA⟩
      have := NN.e2 hu kl.matT ka h (t := a)
        (by simp [einsumTerms, lbSummed, lbDim, lbGet?, hA, hlT, -List.getD_eq_getElem?_getD])
      refine this.mono hu ?_
      rw [hr0 rfl]; omega
    | some r =>
      obtain ⟨r', mr, rfl, rfl, kr⟩ := kr.of_some
      obtain ⟨y, hr⟩ := hr r rfl
      refine ⟨_, _, rfl, rfl, ?_, _, _, ND.es_ij_jkl_lm_ikm_shape hlT hA hr⟩
      have := NN.e3 hu kl.matT ka kr h (t := a * c)
        (by simp [einsumTerms, lbSummed, lbDim, lbGet?, hA, hlT, hr, -List.getD_eq_getElem?_getD])
      exact this.mono hu (by omega)

theorem psi_near {u : ℝ} (hu : 0 ≤ u) {X : Leaf ℝ} (hX : X.Valid) (hd : 2 ≤ X.shape.length)
    {mu lr rr nl nr : ℕ} {lo' lo lm ro' ro rm : Option (ND ℝ)} {C : ND ℝ} (hs : PsiShapes X mu lr rr lo ro)
    (kl : OptNN u nl lo' lo lm) (kr : OptNN u nr ro' ro rm)
    (h : FlPsiLeaf u X mu [lr, X.shape.getD mu 0, rr] lo' ro' C) :
    ∃ A M, psiLeaf X mu [lr, X.shape.getD mu 0, rr] lo ro = .ok A ∧
      psiLeaf X.abs mu [lr, X.shape.getD mu 0, rr] lm rm = .ok M ∧
      NN u (nl + nr + X.psiRounds mu) C A M := by
  have hmu : mu < X.shape.length := by
    rcases hs.right with ⟨h1, _⟩ | ⟨h1, _⟩ <;> omega
  have hne : lo = none → ro = none → False := by
    intro e1 e2
    rcases hs.left with ⟨h0, _, _⟩ | ⟨_, l, h0, _⟩
    · rcases hs.right with ⟨h1, _, _⟩ | ⟨_, r, h1, _⟩
      · omega
      · rw [e2] at h1; cases h1
    · rw [e1] at h0; cases h0
  cases X with
  | sparse X => exact psiSparse_near hu hd hs kl kr h
  | tt X =>
    have hlen : X.cores.length = X.shape.length := by simp [TT.shape]
    have hmu' : mu < X.shape.length := hmu
    obtain ⟨x, hc, h0, h1⟩ := TT.Valid.cores hX
    have hC := hc mu (by omega)
    have hnil : X.cores ≠ [] := by
      intro hc
      rw [hc] at hlen; simp at hlen; omega
    have := psiCore_near hu hC (NN.rfl' _) hne ?_ ?_ ?_ ?_ kl kr h
    · obtain ⟨P, M, e1, e2, k, _⟩ := this
      refine ⟨P, M, e1, ?_, k.mono hu ?_⟩
      · show psiCore (X.abs.cores.getD mu (ND.zeros [])) _ _ = _
        rw [show X.abs.cores = X.cores.map ND.abs from rfl, abs_getD (by omega)]
        exact e2
      · show _ ≤ nl + nr + ((1 :: X.rank).getD mu 0 * (X.rank ++ [1]).getD mu 0 + 1)
        rw [TT.rank_cons_getD hc h0 (by omega)]
        have e : (X.rank ++ [1]).getD mu 0 = x (mu + 1) := by
          by_cases hl : mu + 1 < X.cores.length
          · rw [List.getD_append _ _ _ _ (by rw [TT.rank_length]; omega), TT.rank_getD hc hl]
          · rw [List.getD_append_right _ _ _ _ (by rw [TT.rank_length]; omega), TT.rank_length,
              show mu - (X.cores.length - 1) = 0 by omega, show mu + 1 = X.cores.length by omega, h1]
            rfl
        rw [e]; omega
    · intro l hl
      rcases hs.left with ⟨_, e, _⟩ | ⟨hm, l2, e, y, hy, hsh⟩
      · rw [hl] at e; cases e
      · rw [hl] at e; injection e with e; subst e
        refine ⟨lr, ?_⟩
        have hch := hc.chain mu (by omega)
        rw [h0] at hch
        rw [hsh, TTChain.unique (by
          intro h'
          have := congrArg List.length h'
          rw [List.length_take] at this
          have h3 : mu = 0 ∨ X.cores.length = 0 := by simpa using this
          omega) hy hch]
    · intro r hr
      rcases hs.right with ⟨_, e, _⟩ | ⟨hm, r2, e, y, hy, hsh⟩
      · rw [hr] at e; cases e
      · rw [hr] at e; injection e with e; subst e
        refine ⟨rr, ?_⟩
        rw [hsh]
        have hm' : mu + 1 < X.shape.length := hm
        have hcons : X.cores.drop (mu + 1) = X.cores.getD (mu + 1) (ND.zeros []) :: X.cores.drop (mu + 2) := by
          rw [getD_eq (by omega)]
          exact (List.drop_eq_getElem_cons (by omega))
        rw [hcons] at hy
        obtain ⟨n, q, hC2, _⟩ := hy
        rw [hc (mu + 1) (by omega)] at hC2
        injection hC2 with e1
        rw [e1]
    · intro e
      rcases hs.left with ⟨hm, _, _⟩ | ⟨hm, l2, e', _⟩
      · rw [hm]; exact h0
      · rw [e] at e'; cases e'
    · intro e
      rcases hs.right with ⟨hm, _, _⟩ | ⟨hm, l2, e', _⟩
      · have hm' : mu + 1 = X.shape.length := hm
        rw [show mu + 1 = X.cores.length by omega]; exact h1
      · rw [e] at e'; cases e'
  | cp X =>
    have hlen : X.cores.length = X.shape.length := by simp [CP.shape]
    have hmu' : mu < X.shape.length := hmu
    have hC : (X.cores.getD mu (ND.zeros [])).shape = [X.shape.getD mu 0, X.rank] := by
      have hm : X.cores.getD mu (ND.zeros []) ∈ X.cores := by
        rw [getD_eq (by omega)]; exact List.getElem_mem _
      obtain ⟨n, hn⟩ := hX.2 _ hm
      have : X.shape.getD mu 0 = n := by
        unfold CP.shape
        rw [getD_map_lt _ _ mu (by omega) (ND.zeros [])]
        unfold ND.dim; rw [hn]; rfl
      rw [this, hn]
    have eabs : X.abs.cores.getD mu (ND.zeros []) = (X.cores.getD mu (ND.zeros [])).abs := by
      rw [show X.abs.cores = X.cores.map ND.abs from rfl, abs_getD (by omega)]
    rcases hs.left with ⟨h0', rfl, rfl⟩ | ⟨h0', l, rfl, hl⟩ <;>
    rcases hs.right with ⟨h1', rfl, rfl⟩ | ⟨h1', r, rfl, hr⟩
    · omega
    · obtain ⟨rfl, rfl⟩ := kl.of_none
      obtain ⟨r', mr, rfl, rfl, kr⟩ := kr.of_some
      have hr' : r.shape = [X.rank, rr] := hr
      obtain ⟨Q, h, rfl⟩ := h
      have k := NN.e2 hu (NN.rfl' _) kr h (t := X.rank)
        (by simp [einsumTerms, lbSummed, lbDim, lbGet?, hC, hr', -List.getD_eq_getElem?_getD])
      have ks := k.shape
      refine ⟨_, _, rfl, rfl, ?_⟩
      show NN u _ _ ((ND.es_ji_il_jl (X.cores.getD mu (ND.zeros [])) r).reshape _)
        ((ND.es_ji_il_jl (X.abs.cores.getD mu (ND.zeros [])) mr).reshape _)
      rw [eabs]
      have ks2 : (ND.es_ji_il_jl (X.cores.getD mu (ND.zeros [])).abs mr).shape
        = (ND.es_ji_il_jl (X.cores.getD mu (ND.zeros [])) r).shape := ks.2
      have ks1 : Q.shape = (ND.es_ji_il_jl (X.cores.getD mu (ND.zeros [])) r).shape := ks.1
      rw [ks1, ks2]
      refine (k.reshape _).mono hu ?_
      show _ ≤ nl + nr + (X.rank + 1)
      omega
    · obtain ⟨rfl, rfl⟩ := kr.of_none
      obtain ⟨l', ml, rfl, rfl, kl⟩ := kl.of_some
      have hl' : l.matT.shape = [lr, X.rank] := ND.matT_shape hl
      obtain ⟨Q, h, rfl⟩ := h
      have k := NN.e2 hu kl.matT (NN.rfl' _) h (t := X.rank)
        (by simp [einsumTerms, lbSummed, lbDim, lbGet?, hC, hl', -List.getD_eq_getElem?_getD])
      have ks := k.shape
      refine ⟨_, _, rfl, rfl, ?_⟩
      show NN u _ _ ((ND.es_il_kl_ik l.matT (X.cores.getD mu (ND.zeros []))).reshape _)
        ((ND.es_il_kl_ik ml.matT (X.abs.cores.getD mu (ND.zeros []))).reshape _)
      rw [eabs]
      have ks2 : (ND.es_il_kl_ik ml.matT (X.cores.getD mu (ND.zeros [])).abs).shape
        = (ND.es_il_kl_ik l.matT (X.cores.getD mu (ND.zeros []))).shape := ks.2
      have ks1 : Q.shape = (ND.es_il_kl_ik l.matT (X.cores.getD mu (ND.zeros []))).shape := ks.1
      rw [ks1, ks2]
      refine (k.reshape _).mono hu ?_
      show _ ≤ nl + nr + (X.rank + 1)
      omega
    · obtain ⟨l', ml, rfl, rfl, kl⟩ := kl.of_some
      obtain ⟨r', mr, rfl, rfl, kr⟩ := kr.of_some
      have hr' : r.shape = [X.rank, rr] := hr
      have hl' : l.matT.shape = [lr, X.rank] := ND.matT_shape hl
      refine ⟨_, _, rfl, rfl, ?_⟩
      rw [eabs]
      have k := NN.e3 hu kl.matT (NN.rfl' _) kr h (t := X.rank)
        (by simp [einsumTerms, lbSummed, lbDim, lbGet?, hC, hl', hr', -List.getD_eq_getElem?_getD])
      refine k.mono hu ?_
      show _ ≤ nl + nr + (X.rank + 1)
      omega
  | dense X =>
    have hmu' : mu < X.shape.length := hmu
    have hd' : 2 ≤ X.shape.length := hd
    rcases hs.left with ⟨h0', rfl, rfl⟩ | ⟨h0', l, rfl, hl⟩ <;>
    rcases hs.right with ⟨h1', rfl, rfl⟩ | ⟨h1', r, rfl, hr⟩
    · omega
    · obtain ⟨rfl, rfl⟩ := kl.of_none
      obtain ⟨r', mr, rfl, rfl, kr⟩ := kr.of_some
      obtain ⟨Q, h, rfl⟩ := h
      have hm : (X.matricize [0] true).shape = [X.shape.getD 0 0, (X.shape.drop 1).prod] := by
        have := matricize_range_true X 1 (by omega)
        rw [show List.range 1 = [0] from rfl] at this
        rw [this, ND.reshape_shape, take_two_getD (by omega) 0]; simp
      have k := NN.mm hu ((NN.rfl' X).matricize [0] true) kr.matT h (t := (X.shape.drop 1).prod)
        (by rw [ND.dim, hm]; rfl)
      have ks := k.shape
      refine ⟨_, _, rfl, rfl, ?_⟩
      rw [ks.1, ks.2]
      refine (k.reshape _).mono hu ?_
      subst h0'
      show _ ≤ nl + nr + ((X.shape.take 0).prod * (X.shape.drop (0 + 1)).prod + 1)
      simp
      omega
    · obtain ⟨rfl, rfl⟩ := kr.of_none
      obtain ⟨l', ml, rfl, rfl, kl⟩ := kl.of_some
      obtain ⟨Q, h, rfl⟩ := h
      have h1' : mu + 1 = X.shape.length := h1'
      have k := NN.mm hu kl ((NN.rfl' X).matricize [X.ndim - 1] true).matT h (t := (X.shape.take mu).prod)
        (by rw [ND.dim, show l.shape = _ from hl]; rfl)
      have ks := k.shape
      refine ⟨_, _, rfl, rfl, ?_⟩
      rw [show X.abs.ndim = X.ndim from rfl, ks.1, ks.2]
      refine (k.reshape _).mono hu ?_
      show _ ≤ nl + nr + ((X.shape.take mu).prod * (X.shape.drop (mu + 1)).prod + 1)
      rw [List.drop_eq_nil_of_le (by omega)]
      simp
      omega
    · obtain ⟨l', ml, rfl, rfl, kl⟩ := kl.of_some
      obtain ⟨r', mr, rfl, rfl, kr⟩ := kr.of_some
      refine ⟨_, _, rfl, rfl, ?_⟩
      have h' : FlEinsum u [([.i, .j], l'), ([.j, .k, .l], dense3 X mu), ([.m, .l], r')] [.i, .k, .m] C := by
        rw [← matricize3 X hmu']; exact h
      have hX3 : (dense3 X mu).shape = [(X.shape.take mu).prod, X.shape.getD mu 0, (X.shape.drop (mu + 1)).prod] := rfl
      have kd : NN u 0 (dense3 X mu) (dense3 X mu) (dense3 X.abs mu) := (NN.rfl' X).reshape _
      have hl' : l.shape = [lr, (X.shape.take mu).prod] := hl
      have hr' : r.shape = [rr, (X.shape.drop (mu + 1)).prod] := hr
      have k := NN.e3 hu kl kd kr h' (t := (X.shape.take mu).prod * (X.shape.drop (mu + 1)).prod)
        (by simp [einsumTerms, lbSummed, lbDim, lbGet?, hX3, hl', hr', -List.getD_eq_getElem?_getD])
      rw [matricize3 X hmu', matricize3 X.abs hmu']
      refine k.mono hu ?_
      show _ ≤ nl + nr + (_ * _ + 1)
      omega
  | tucker X =>
    have hrl : X.rank.length = X.shape.length := by simp [Tucker.rank, Tucker.shape]
    have hfl : X.factors.length = X.shape.length := by simp [Tucker.shape]
    have hmu' : mu < X.shape.length := hmu
    have hres : ∀ Y : ND ℝ, Y.shape = X.rank →
        Y.reshape? [(X.rank.take mu).prod, X.rank.getD mu 0, (X.rank.drop (mu + 1)).prod]
        = .ok (dense3 Y mu) := by
      intro Y hY
      unfold ND.reshape? dense3
      have hp : Y.shape.prod = (X.rank.take mu).prod * (X.rank.getD mu 0 * (X.rank.drop (mu + 1)).prod) := by
        rw [hY]
        conv_lhs => rw [shape_three X.rank (by omega : mu < X.rank.length)]
        simp
      rw [if_pos (by simp [hp]), hY]
    have hC : (dense3 X.core mu).shape
        = [(X.rank.take mu).prod, X.rank.getD mu 0, (X.rank.drop (mu + 1)).prod] := by
      unfold dense3; rw [ND.reshape_shape, hX.2]
    have hU : (X.factors.getD mu (ND.zeros [])).shape = [X.rank.getD mu 0, X.shape.getD mu 0] := by
      have hm : X.factors.getD mu (ND.zeros []) ∈ X.factors := by
        rw [getD_eq (by omega)]; exact List.getElem_mem _
      obtain ⟨s, n, hn⟩ := hX.1 _ hm
      unfold Tucker.shape Tucker.rank
      rw [getD_map_lt _ _ mu (by omega) (ND.zeros []), getD_map_lt _ _ mu (by omega) (ND.zeros [])]
      unfold ND.dim; rw [hn]; rfl
    have eabs : X.abs.factors.getD mu (ND.zeros []) = (X.factors.getD mu (ND.zeros [])).abs := by
      rw [show X.abs.factors = X.factors.map ND.abs from rfl, abs_getD (by omega)]
    have kd : NN u 0 (dense3 X.core mu) (dense3 X.core mu) (dense3 X.core.abs mu) := (NN.rfl' X.core).reshape _
    have dl : ∀ lo lo' lm, OptNN u nl lo' lo lm → (lo'.map fun l => l.dim 0) = (lo.map fun l => l.dim 0) ∧
        (lm.map fun l => l.dim 0) = (lo.map fun l => l.dim 0) := by
      intro lo lo' lm k
      cases lo with
      | none => obtain ⟨rfl, rfl⟩ := k.of_none; exact ⟨rfl, rfl⟩
      | some l =>
        obtain ⟨C, M, rfl, rfl, k⟩ := k.of_some
        simp [ND.dim, k.shape]
    have dr : ∀ lo lo' lm, OptNN u nr lo' lo lm → (lo'.map fun l => l.dim 0) = (lo.map fun l => l.dim 0) ∧
        (lm.map fun l => l.dim 0) = (lo.map fun l => l.dim 0) := by
      intro lo lo' lm k
      cases lo with
      | none => obtain ⟨rfl, rfl⟩ := k.of_none; exact ⟨rfl, rfl⟩
      | some l =>
        obtain ⟨C, M, rfl, rfl, k⟩ := k.of_some
        simp [ND.dim, k.shape]
    have hl1 : (lo.map fun l => l.dim 0).getD 1 = (X.rank.take mu).prod := by
      rcases hs.left with ⟨h0', rfl, rfl⟩ | ⟨h0', l, rfl, hl⟩
      · subst h0'; simp
      · simp [ND.dim, show l.shape = _ from hl]
    have hr1 : (ro.map fun l => l.dim 0).getD 1 = (X.rank.drop (mu + 1)).prod := by
      rcases hs.right with ⟨h1', rfl, rfl⟩ | ⟨h1', r, rfl, hr⟩
      · have h1' : mu + 1 = X.shape.length := h1'
        rw [List.drop_eq_nil_of_le (by omega)]; simp
      · simp [ND.dim, show r.shape = _ from hr]
    obtain ⟨A, Q, hA, hQ, hP⟩ := h
    rw [(dl _ _ _ kl).1, (dr _ _ _ kr).1, hl1, hr1, hres _ hX.2] at hA
    injection hA with hA
    subst hA
    have := psiCore_near hu hC kd hne ?_ ?_ ?_ ?_ kl kr hQ
    · obtain ⟨P, M, e1, e2, k, x, y, hPs⟩ := this
      refine ⟨ND.es_ijk_jl_ilk P (X.factors.getD mu (ND.zeros [])),
        ND.es_ijk_jl_ilk M (X.factors.getD mu (ND.zeros [])).abs, ?_, ?_, ?_⟩
      · show psiTucker X mu lo ro = _
        unfold psiTucker
        simp only [hl1, hr1, hres _ hX.2, e1]
      · show psiTucker X.abs mu lm rm = _
        unfold psiTucker
        simp only [(dl _ _ _ kl).2, (dr _ _ _ kr).2, hl1, hr1, Tucker.abs_rank, eabs,
          hres X.abs.core hX.2]
        rw [show dense3 X.abs.core mu = dense3 X.core.abs mu from rfl, e2]
      · have k2 := NN.e2 hu k (NN.rfl' _) hP (t := X.rank.getD mu 0)
          (by simp [einsumTerms, lbSummed, lbDim, lbGet?, hPs, hU, -List.getD_eq_getElem?_getD])
        refine k2.mono hu ?_
        show _ ≤ nl + nr + (_ * _ + 1 + _)
        omega
    · intro l hl
      rcases hs.left with ⟨_, e, _⟩ | ⟨hm, l2, e, hsh⟩
      · rw [hl] at e; cases e
      · rw [hl] at e; injection e with e; subst e
        exact ⟨lr, hsh⟩
    · intro l hl
      rcases hs.right with ⟨_, e, _⟩ | ⟨hm, l2, e, hsh⟩
      · rw [hl] at e; cases e
      · rw [hl] at e; injection e with e; subst e
        exact ⟨rr, hsh⟩
    · intro e
      rw [← hl1, e]; rfl
    · intro e
      rw [← hr1, e]; rfl

end TTS
