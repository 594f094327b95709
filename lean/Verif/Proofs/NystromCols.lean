import Verif.Spec.NystromAll
import Verif.Proofs.NystromChain

/-! # Proofs for `Spec/NystromAll.lean`

The arguments of `Proofs/NystromChain.lean` for arbitrary sketched unfoldings. -/

namespace TTS

open Finset

/-- A Psi core in terms of the sketched unfoldings. -/
def psiM (sh : List ℕ) (L : Mats ℝ) (M : ℕ → List ℕ → ℕ → ℝ) (mu a j b : ℕ) : ℝ :=
  sumIdx (sh.take mu) fun p => L mu p a * M (mu + 1) (p ++ [j]) b

@[simp] theorem oblique_shape_cols (A : ND ℝ) (L : Mats ℝ) (M : ℕ → List ℕ → ℕ → ℝ) (k l r : ℕ) (G : ℕ → ℕ → ℝ) (Z : ND ℝ) :
    (obliqueCols A L M k l r G Z).shape = A.shape := rfl

theorem obliques_shape_cols (A : ND ℝ) (L : Mats ℝ) (M : ℕ → List ℕ → ℕ → ℝ) (l r : List ℕ) (G : ℕ → ℕ → ℕ → ℝ) :
    ∀ (k : ℕ) (Z : ND ℝ), Z.shape = A.shape → (obliquesCols A L M l r G k Z).shape = A.shape
  | 0, _, h => h
  | k + 1, _, _ => obliques_shape_cols A L M l r G k _ rfl

theorem oblique_get_cols {A : ND ℝ} {L : Mats ℝ} {M : ℕ → List ℕ → ℕ → ℝ} {k l r : ℕ} {G : ℕ → ℕ → ℝ} {Z : ND ℝ} {p q : List ℕ}
    (hk : k ≤ A.shape.length) (hp : InR (A.shape.take k) p) (hq : InR (A.shape.drop k) q) :
    (obliqueCols A L M k l r G Z).get (p ++ q) = ∑ b ∈ range r, M k p b
      * ∑ a ∈ range l, G b a * leftSketch Z L k a q := by
  have hl : p.length = k := by rw [hp.length, List.length_take]; omega
  have hi : InR A.shape (p ++ q) := by
    have := hp.append hq
    rwa [List.take_append_drop] at this
  unfold obliqueCols
  rw [ND.ofFn_get hi, List.take_left' hl, List.drop_left' hl]

theorem leftSketch_oblique_cols {A : ND ℝ} {L : Mats ℝ} {M : ℕ → List ℕ → ℕ → ℝ} {k l r : ℕ} {G : ℕ → ℕ → ℝ} {Z : ND ℝ} {a j : ℕ} {q : List ℕ}
    (hk : k < A.shape.length) (hj : j < A.shape.getD k 0) (hq : InR (A.shape.drop (k + 1)) q) :
    leftSketch (obliqueCols A L M (k + 1) l r G Z) L k a (j :: q)
      = ∑ b ∈ range r, psiM A.shape L M k a j b * ∑ c ∈ range l, G b c * leftSketch Z L (k + 1) c q := by
  have e : leftSketch (obliqueCols A L M (k + 1) l r G Z) L k a (j :: q)
      = sumIdx (A.shape.take k) fun p => ∑ b ∈ range r, L k p a * M (k + 1) (p ++ [j]) b
        * ∑ c ∈ range l, G b c * leftSketch Z L (k + 1) c q := by
    refine sumIdx_congr fun p hp => ?_
    have := oblique_get_cols (A := A) (L := L) (M := M) (l := l) (r := r) (G := G) (Z := Z) (by omega)
      (inR_take_snoc hk hp hj) hq
    rw [List.append_assoc] at this
    beta_reduce
    rw [show p ++ j :: q = p ++ ([j] ++ q) from rfl, this, mul_sum]
    exact sum_congr rfl fun b _ => by ring
  rw [e, sumIdx_sum]
  refine sum_congr rfl fun b _ => ?_
  unfold psiM
  rw [sumIdx_mul]

theorem obliques_right_cols {A : ND ℝ} {L : Mats ℝ} {M : ℕ → List ℕ → ℕ → ℝ} {lr rr : List ℕ} {G : ℕ → ℕ → ℕ → ℝ} {cs : List (ND ℝ)}
    (hl : lr.length = A.shape.length - 1) (hlen : cs.length = A.shape.length) (hL : ∀ a, L 0 [] a = 1)
    (h : Cores cs (fun k => (1 :: lr ++ [1]).getD k 0) fun k => A.shape.getD k 0)
    (hcs : ∀ k < A.shape.length - 1, ∀ a < (1 :: lr).getD k 0, ∀ j < A.shape.getD k 0, ∀ c < lr.getD k 0,
      (cs.getD k (ND.zeros [])).get [a, j, c] = ∑ b ∈ range (rr.getD k 0), psiM A.shape L M k a j b * G k b c) :
    ∀ k ≤ A.shape.length - 1, ∀ Z : ND ℝ, Z.shape = A.shape → ∀ p q, InR (A.shape.take k) p → InR (A.shape.drop k) q →
      (obliquesCols A L M lr rr G k Z).get (p ++ q)
        = ∑ a ∈ range ((1 :: lr).getD k 0), coreMats cs k p a * leftSketch Z L k a q
  | 0, _, Z, _, p, q, hp, hq => by
    have : p = [] := by simpa using hp.length
    subst this
    show Z.get q = _
    simp [coreMats, leftSketch_zero hL]
  | k + 1, hk, Z, hZ, p, q, hp, hq => by
    obtain ⟨p, j, hp1, hj, rfl⟩ := inR_take_unsnoc (by omega) hp
    clear hp
    rename' hp1 => hp
    have ih := obliques_right_cols hl hlen hL h hcs k (by omega)
      (obliqueCols A L M (k + 1) (lr.getD k 0) (rr.getD k 0) (G k) Z) rfl p (j :: q) hp (by
        rw [drop_eq_getD_cons (by omega)]; exact ⟨hj, hq⟩)
    show (obliquesCols A L M lr rr G k (obliqueCols A L M (k + 1) (lr.getD k 0) (rr.getD k 0) (G k) Z)).get _ = _
    rw [List.append_assoc, List.singleton_append, ih, List.getD_cons_succ]
    have hpl : p.length = k := by rw [hp.length, List.length_take]; omega
    have e1 : ∀ t ∈ range (lr.getD k 0), coreMats cs (k + 1) (p ++ [j]) t * leftSketch Z L (k + 1) t q
        = ∑ a ∈ range ((1 :: lr).getD k 0), coreMats cs k p a *
          ((cs.getD k (ND.zeros [])).get [a, j, t] * leftSketch Z L (k + 1) t q) := by
      intro t ht
      rw [coreMats_succ h rfl (by omega) hpl, sum_mul, aug_left (by omega)]
      exact sum_congr rfl fun a _ => mul_assoc _ _ _
    rw [sum_congr rfl e1, sum_comm]
    refine sum_congr rfl fun a ha => ?_
    rw [← mul_sum, leftSketch_oblique_cols (by omega) hj hq]
    congr 1
    have e2 : ∀ t ∈ range (lr.getD k 0), (cs.getD k (ND.zeros [])).get [a, j, t] * leftSketch Z L (k + 1) t q
        = ∑ b ∈ range (rr.getD k 0), psiM A.shape L M k a j b * (G k b t * leftSketch Z L (k + 1) t q) := by
      intro t ht
      rw [hcs k (by omega) a (by simpa using ha) j hj t (by simpa using ht), sum_mul]
      exact sum_congr rfl fun b _ => mul_assoc _ _ _
    rw [sum_congr rfl e2, sum_comm]
    exact sum_congr rfl fun b _ => mul_sum _ _ _

theorem obliques_left_cols {A : ND ℝ} {L : Mats ℝ} {M : ℕ → List ℕ → ℕ → ℝ} {lr rr : List ℕ} {G : ℕ → ℕ → ℕ → ℝ} {cs : List (ND ℝ)}
    (hr : rr.length = A.shape.length - 1) (hlen : cs.length = A.shape.length) (hL : ∀ a, L 0 [] a = 1)
    (h : Cores cs (fun k => (1 :: rr ++ [1]).getD k 0) fun k => A.shape.getD k 0)
    (h0 : ∀ j < A.shape.getD 0 0, ∀ b < rr.getD 0 0, (cs.getD 0 (ND.zeros [])).get [0, j, b] = M 1 [j] b)
    (hcs : ∀ k < A.shape.length - 1, ∀ b < rr.getD k 0, ∀ j < A.shape.getD (k + 1) 0, ∀ c < (rr ++ [1]).getD (k + 1) 0,
      (cs.getD (k + 1) (ND.zeros [])).get [b, j, c]
        = ∑ i ∈ range (lr.getD k 0), G k b i * psiM A.shape L M (k + 1) i j c) :
    ∀ k < A.shape.length - 1, ∀ Z : ND ℝ, Z.shape = A.shape → ∀ p q, InR (A.shape.take (k + 1)) p →
      InR (A.shape.drop (k + 1)) q → (obliquesCols A L M lr rr G (k + 1) Z).get (p ++ q)
        = ∑ b ∈ range (rr.getD k 0), coreMats cs (k + 1) p b * ∑ a ∈ range (lr.getD k 0), G k b a * leftSketch Z L (k + 1) a q
  | 0, hk, Z, _, p, q, hp, hq => by
    obtain ⟨p, j, hp', hj, rfl⟩ := inR_take_unsnoc (by omega) hp
    have : p = [] := by simpa using hp'.length
    subst this
    show (obliqueCols A L M 1 _ _ (G 0) Z).get _ = _
    rw [oblique_get_cols (by omega) hp hq]
    refine sum_congr rfl fun b hb => ?_
    rw [coreMats_succ h rfl (mu := 0) (by omega) rfl]
    congr 1
    refine (h0 j hj b (by simpa using hb)).symm.trans ?_
    simp [coreMats]
  | k + 1, hk, Z, hZ, p, q, hp, hq => by
    obtain ⟨p, j, hp1, hj, rfl⟩ := inR_take_unsnoc (by omega) hp
    clear hp
    rename' hp1 => hp
    have ih := obliques_left_cols hr hlen hL h h0 hcs k (by omega)
      (obliqueCols A L M (k + 1 + 1) (lr.getD (k + 1) 0) (rr.getD (k + 1) 0) (G (k + 1)) Z) rfl p (j :: q) hp (by
        rw [drop_eq_getD_cons (by omega)]; exact ⟨hj, hq⟩)
    show (obliquesCols A L M lr rr G (k + 1) (obliqueCols A L M (k + 1 + 1) (lr.getD (k + 1) 0) (rr.getD (k + 1) 0) (G (k + 1)) Z)).get _ = _
    rw [List.append_assoc, List.singleton_append, ih]
    have hpl : p.length = k + 1 := by rw [hp.length, List.length_take]; omega
    have e1 : ∀ c ∈ range (rr.getD (k + 1) 0), coreMats cs (k + 1 + 1) (p ++ [j]) c
          * (∑ a ∈ range (lr.getD (k + 1) 0), G (k + 1) c a * leftSketch Z L (k + 1 + 1) a q)
        = ∑ b ∈ range (rr.getD k 0), coreMats cs (k + 1) p b * ((cs.getD (k + 1) (ND.zeros [])).get [b, j, c]
          * (∑ a ∈ range (lr.getD (k + 1) 0), G (k + 1) c a * leftSketch Z L (k + 1 + 1) a q)) := by
      intro c hc
      rw [coreMats_succ h rfl (by omega) hpl, sum_mul, aug_left (by omega), List.getD_cons_succ]
      exact sum_congr rfl fun a _ => mul_assoc _ _ _
    rw [sum_congr rfl e1, sum_comm]
    refine sum_congr rfl fun b hb => ?_
    rw [← mul_sum]
    congr 1
    have e2 : ∀ c ∈ range (rr.getD (k + 1) 0), (cs.getD (k + 1) (ND.zeros [])).get [b, j, c]
          * (∑ a ∈ range (lr.getD (k + 1) 0), G (k + 1) c a * leftSketch Z L (k + 1 + 1) a q)
        = ∑ i ∈ range (lr.getD k 0), G k b i * (psiM A.shape L M (k + 1) i j c
          * (∑ a ∈ range (lr.getD (k + 1) 0), G (k + 1) c a * leftSketch Z L (k + 1 + 1) a q)) := by
      intro c hc
      rw [hcs k (by omega) b (by simpa using hb) j hj c (by
        rw [List.getD_append _ _ _ _ (by omega)]; simpa using hc), sum_mul]
      exact sum_congr rfl fun b _ => mul_assoc _ _ _
    rw [sum_congr rfl e2, sum_comm]
    refine sum_congr rfl fun i _ => ?_
    rw [leftSketch_oblique_cols (by omega) hj hq, ← mul_sum]

theorem nystrom_right_cols {env : Env ℝ} (hE : MPContract env) {A : ND ℝ} {L : Mats ℝ} {M : ℕ → List ℕ → ℕ → ℝ} {lr rr : List ℕ}
    {G : ℕ → ℕ → ℕ → ℝ} (hd : 1 ≤ A.shape.length) (hl : lr.length = A.shape.length - 1)
    (hr : rr.length = A.shape.length - 1) (hL : ∀ a, L 0 [] a = 1) {s : Container ℝ}
    (hs : s.HasShape A.shape lr rr) (hpsi : ∀ mu < A.shape.length, ∀ a < (1 :: lr).getD mu 0, ∀ j < A.shape.getD mu 0,
      ∀ b < (rr ++ [1]).getD mu 0, (s.psi.getD mu (ND.zeros [])).get [a, j, b] = psiM A.shape L M mu a j b)
    (hlast : ∀ a < (1 :: lr).getD (A.shape.length - 1) 0, ∀ j < A.shape.getD (A.shape.length - 1) 0,
      (s.psi.getD (A.shape.length - 1) (ND.zeros [])).get [a, j, 0] = leftSketch A L (A.shape.length - 1) a [j])
    (hG : ∀ mu < A.shape.length - 1,
      IsPinv ((s.omega.getD mu (ND.zeros [])).asMatrix (lr.getD mu 0) (rr.getD mu 0))
        (matOf (rr.getD mu 0) (lr.getD mu 0) (G mu))) :
    ∃ cs, assembleRight env s = .ok cs ∧ (TT.mk cs).Valid ∧
      (TT.mk cs).toNumpy = obliquesCols A L M lr rr G (A.shape.length - 1) A := by
  obtain ⟨cs, h1, h2, h3, h4, h5⟩ := assembleRight_gen (env := env) (Q := fun k C =>
      ∀ a < (1 :: lr).getD k 0, ∀ j < A.shape.getD k 0, ∀ c < lr.getD k 0,
      C.get [a, j, c] = ∑ b ∈ range (rr.getD k 0), psiM A.shape L M k a j b * G k b c) hd hl hr
    hs (by
      intro k hk P O hP hO hPs hOs
      subst hO
      obtain ⟨C, c1, c2, c3⟩ := rightCore_pinv hE hPs hOs (hG k hk)
      refine ⟨C, c1, c2, fun a ha j hj c hc => ?_⟩
      rw [c3 a ha j hj c hc]
      refine sum_congr rfl fun b hb => ?_
      rw [hP, hpsi k (by omega) a ha j hj b (by rw [List.getD_append _ _ _ _ (by omega)]; simpa using hb)])
  have hv : (TT.mk cs).Valid := h3.valid rfl (by omega) (aug_last (by omega))
  have hsh : (TT.mk cs).shape = A.shape := by rw [h3.ttShape, h2, ND.map_range_getD]
  refine ⟨cs, h1, hv, ND.ext' (by rw [TT.toNumpy_shape hv, hsh, obliques_shape_cols _ _ _ _ _ _ _ _ rfl]) fun i hi => ?_⟩
  rw [TT.toNumpy_shape hv, hsh] at hi
  rw [TT.toNumpy_get hv]
  obtain ⟨p, j, hp, hj, rfl⟩ := inR_take_unsnoc (sh := A.shape) (m := A.shape.length - 1) (by omega) (by
    rwa [Nat.sub_add_cancel hd, List.take_length])
  have hpl : p.length = A.shape.length - 1 := by rw [hp.length, List.length_take]; omega
  have hdr : A.shape.drop (A.shape.length - 1) = [A.shape.getD (A.shape.length - 1) 0] := by
    rw [drop_eq_getD_cons (show A.shape.length - 1 < A.shape.length by omega), Nat.sub_add_cancel hd, List.drop_length]
  rw [obliques_right_cols hl h2 hL h3 h5 _ le_rfl A rfl p [j] hp (by rw [hdr]; exact ⟨hj, trivial⟩),
    coreMats_full (by omega), h2]
  obtain ⟨d, hd'⟩ : ∃ d, A.shape.length = d + 1 := ⟨_, (Nat.sub_add_cancel hd).symm⟩
  have e := coreMats_succ h3 rfl (mu := A.shape.length - 1) (by omega) hpl j 0
  rw [Nat.sub_add_cancel hd] at e
  rw [e, aug_left (by omega)]
  refine sum_congr rfl fun a ha => ?_
  rw [h4, hlast a (by simpa using ha) j hj]

theorem nystrom_left_cols {env : Env ℝ} (hE : MPContract env) {A : ND ℝ} {L : Mats ℝ} {M : ℕ → List ℕ → ℕ → ℝ} {lr rr : List ℕ}
    {G : ℕ → ℕ → ℕ → ℝ} (hd : 2 ≤ A.shape.length)
    (hr : rr.length = A.shape.length - 1) (hL : ∀ a, L 0 [] a = 1) {s : Container ℝ}
    (hs : s.HasShape A.shape lr rr) (hpsi : ∀ mu < A.shape.length, ∀ a < (1 :: lr).getD mu 0, ∀ j < A.shape.getD mu 0,
      ∀ b < (rr ++ [1]).getD mu 0, (s.psi.getD mu (ND.zeros [])).get [a, j, b] = psiM A.shape L M mu a j b)
    (hlast : ∀ a < (1 :: lr).getD (A.shape.length - 1) 0, ∀ j < A.shape.getD (A.shape.length - 1) 0,
      (s.psi.getD (A.shape.length - 1) (ND.zeros [])).get [a, j, 0] = leftSketch A L (A.shape.length - 1) a [j])
    (hG : ∀ mu < A.shape.length - 1,
      IsPinv ((s.omega.getD mu (ND.zeros [])).asMatrix (lr.getD mu 0) (rr.getD mu 0))
        (matOf (rr.getD mu 0) (lr.getD mu 0) (G mu))) :
    ∃ cs, assembleLeft env s = .ok cs ∧ (TT.mk cs).Valid ∧
      (TT.mk cs).toNumpy = obliquesCols A L M lr rr G (A.shape.length - 1) A := by
  obtain ⟨cs, h1, h2, h3, h4, h5⟩ := assembleLeft_gen (env := env) (lr := lr) (Q := fun k C =>
      ∀ b < rr.getD k 0, ∀ j < A.shape.getD (k + 1) 0, ∀ c < (rr ++ [1]).getD (k + 1) 0,
      C.get [b, j, c] = ∑ i ∈ range (lr.getD k 0), G k b i * psiM A.shape L M (k + 1) i j c) (by omega) hr
    hs (by
      intro k hk P O hP hO hPs hOs
      subst hO
      obtain ⟨C, c1, c2, c3⟩ := leftCore_pinv hE hPs hOs (hG k hk)
      refine ⟨C, c1, c2, fun b hb j hj c hc => ?_⟩
      rw [c3 b hb j hj c hc]
      refine sum_congr rfl fun i hi => ?_
      rw [hP, hpsi (k + 1) (by omega) i (by rw [List.getD_cons_succ]; simpa using hi) j hj c hc])
  have hv : (TT.mk cs).Valid := h3.valid rfl (by omega) (aug_last (by omega))
  have hsh : (TT.mk cs).shape = A.shape := by rw [h3.ttShape, h2, ND.map_range_getD]
  refine ⟨cs, h1, hv, ND.ext' (by rw [TT.toNumpy_shape hv, hsh, obliques_shape_cols _ _ _ _ _ _ _ _ rfl]) fun i hi => ?_⟩
  rw [TT.toNumpy_shape hv, hsh] at hi
  rw [TT.toNumpy_get hv]
  obtain ⟨d, hd'⟩ : ∃ d, A.shape.length = d + 2 := ⟨A.shape.length - 2, by omega⟩
  obtain ⟨p, j, hp, hj, rfl⟩ := inR_take_unsnoc (sh := A.shape) (m := d + 1) (by omega) (by
    rwa [show d + 1 + 1 = A.shape.length by omega, List.take_length])
  have hpl : p.length = d + 1 := by rw [hp.length, List.length_take]; omega
  have hdr : A.shape.drop (d + 1) = [A.shape.getD (d + 1) 0] := by
    rw [drop_eq_getD_cons (show d + 1 < A.shape.length by omega), show d + 1 + 1 = A.shape.length by omega, List.drop_length]
  rw [show A.shape.length - 1 = d + 1 by omega]
  rw [obliques_left_cols hr h2 hL h3 (fun j hj b hb => by
    rw [h4, hpsi 0 (by omega) 0 Nat.one_pos j hj b (by rwa [List.getD_append _ _ _ _ (by omega)])]
    simp [psiM, hL]) h5 d (by omega) A rfl p [j] hp (by rw [hdr]; exact ⟨hj, trivial⟩), coreMats_full (by omega), h2]
  have e := coreMats_succ h3 rfl (mu := d + 1) (by omega) hpl j 0
  rw [show A.shape.length = d + 1 + 1 by omega, e, aug_left (by omega), List.getD_cons_succ]
  refine sum_congr rfl fun b hb => ?_
  congr 1
  rw [h5 d (by omega) b (by simpa using hb) j hj 0 (by
    rw [List.getD_append_right rr [1] 0 (d + 1) (by omega), show d + 1 - rr.length = 0 by omega]; exact Nat.one_pos)]
  refine sum_congr rfl fun a ha => ?_
  have := hlast a (by rw [show A.shape.length - 1 = d + 1 by omega, List.getD_cons_succ]; simpa using ha) j
    (by rw [show A.shape.length - 1 = d + 1 by omega]; exact hj)
  rw [hpsi _ (by omega) a (by rw [show A.shape.length - 1 = d + 1 by omega, List.getD_cons_succ]; simpa using ha) j
    (by rw [show A.shape.length - 1 = d + 1 by omega]; exact hj) 0 (by
      rw [List.getD_append_right _ _ _ _ (by omega), hr, Nat.sub_self]; exact Nat.one_pos),
    show A.shape.length - 1 = d + 1 by omega] at this
  rw [this]

theorem oblique_minus_cols {A Z W : ND ℝ} (hZ : Z.shape = A.shape) (hW : W.shape = A.shape) {L : Mats ℝ} {M : ℕ → List ℕ → ℕ → ℝ} {k l r : ℕ}
    {G : ℕ → ℕ → ℝ} (hk : k ≤ A.shape.length) :
    obliqueCols A L M k l r G (Z.minus W) = (obliqueCols A L M k l r G Z).minus (obliqueCols A L M k l r G W) := by
  refine ND.ext' rfl fun i hi => ?_
  have hi : InR A.shape i := hi
  show _ = (ND.ofFn A.shape _).get i
  rw [ND.ofFn_get hi]
  unfold obliqueCols
  rw [ND.ofFn_get hi, ND.ofFn_get hi, ND.ofFn_get hi, ← sum_sub_distrib]
  refine sum_congr rfl fun b _ => ?_
  rw [← mul_sub, ← sum_sub_distrib]
  congr 1
  refine sum_congr rfl fun a _ => ?_
  rw [leftSketch_minus (by rw [hZ, hW]) (by rw [hZ]; exact hk) (by rw [hZ]; exact hi.drop k)]
  ring

theorem obliques_minus_cols {A : ND ℝ} {L : Mats ℝ} {M : ℕ → List ℕ → ℕ → ℝ} {lr rr : List ℕ} {G : ℕ → ℕ → ℕ → ℝ} :
    ∀ (k : ℕ) (Z W : ND ℝ), k ≤ A.shape.length → Z.shape = A.shape → W.shape = A.shape →
      obliquesCols A L M lr rr G k (Z.minus W) = (obliquesCols A L M lr rr G k Z).minus (obliquesCols A L M lr rr G k W)
  | 0, _, _, _, _, _ => rfl
  | k + 1, Z, W, hk, hZ, hW => by
    show obliquesCols A L M lr rr G k (obliqueCols _ _ _ _ _ _ _ _) = _
    rw [oblique_minus_cols hZ hW hk, obliques_minus_cols (A := A) k (obliqueCols A L M (k + 1) (lr.getD k 0) (rr.getD k 0) (G k) Z)
      (obliqueCols A L M (k + 1) (lr.getD k 0) (rr.getD k 0) (G k) W) (by omega) rfl rfl]
    rfl

theorem obliques_bound_cols {A : ND ℝ} {L : Mats ℝ} {M : ℕ → List ℕ → ℕ → ℝ} {lr rr : List ℕ} {G : ℕ → ℕ → ℕ → ℝ} {c : ℕ → ℝ} {n : ℕ}
    (hc0 : ∀ k < n, 0 ≤ c k)
    (hc : ∀ k < n, ∀ Z : ND ℝ, Z.shape = A.shape →
      √(normSq (obliqueCols A L M (k + 1) (lr.getD k 0) (rr.getD k 0) (G k) Z)) ≤ c k * √(normSq Z)) :
    ∀ k ≤ n, ∀ Z : ND ℝ, Z.shape = A.shape → √(normSq (obliquesCols A L M lr rr G k Z)) ≤ (∏ m ∈ range k, c m) * √(normSq Z)
  | 0, _, Z, _ => by simp [obliquesCols]
  | k + 1, hk, Z, hZ => by
    show √(normSq (obliquesCols A L M lr rr G k _)) ≤ _
    refine (obliques_bound_cols hc0 hc k (by omega) (obliqueCols A L M (k + 1) (lr.getD k 0) (rr.getD k 0) (G k) Z) rfl).trans ?_
    rw [prod_range_succ, mul_assoc]
    exact mul_le_mul_of_nonneg_left (hc k (by omega) Z hZ)
      (prod_nonneg fun m hm => hc0 m (by have := mem_range.1 hm; omega))

theorem obliques_error_cols {A : ND ℝ} {L : Mats ℝ} {M : ℕ → List ℕ → ℕ → ℝ} {lr rr : List ℕ} {G : ℕ → ℕ → ℕ → ℝ} {c : ℕ → ℝ} {n : ℕ}
    (hn : n ≤ A.shape.length)
    (hc0 : ∀ k < n, 0 ≤ c k)
    (hc : ∀ k < n, ∀ Z : ND ℝ, Z.shape = A.shape →
      √(normSq (obliqueCols A L M (k + 1) (lr.getD k 0) (rr.getD k 0) (G k) Z)) ≤ c k * √(normSq Z)) :
    ∀ k ≤ n, √(distSq A (obliquesCols A L M lr rr G k A))
      ≤ ∑ m ∈ range k, (∏ i ∈ range m, c i) * √(distSq A (obliqueCols A L M (m + 1) (lr.getD m 0) (rr.getD m 0) (G m) A))
  | 0, _ => by
    have : distSq A A = 0 := sumIdx_eq_zero fun i _ => by simp
    simp [obliquesCols, this]
  | k + 1, hk => by
    have ih := obliques_error_cols hn hc0 hc k (by omega)
    set P := obliqueCols A L M (k + 1) (lr.getD k 0) (rr.getD k 0) (G k) A with hP
    have hs1 := obliques_shape_cols A L M lr rr G k A rfl
    have key : √(distSq (obliquesCols A L M lr rr G k A) (obliquesCols A L M lr rr G k P))
        ≤ (∏ i ∈ range k, c i) * √(distSq A (obliqueCols A L M (k + 1) (lr.getD k 0) (rr.getD k 0) (G k) A)) := by
      rw [← hP, ← normSq_minus, ← normSq_minus, ← obliques_minus_cols k A P (by omega) rfl rfl]
      exact obliques_bound_cols hc0 hc k (by omega) (A.minus P) rfl
    rw [sum_range_succ]
    refine le_trans ?_ (add_le_add ih key)
    rw [sqrt_distSq, sqrt_distSq, sqrt_distSq, hs1]
    exact norm_sub_le_norm_sub_add_norm_sub _ _ _

theorem leftSketch_oblique_full_cols {A : ND ℝ} {L : Mats ℝ} {M : ℕ → List ℕ → ℕ → ℝ} {k l r : ℕ} {G : ℕ → ℕ → ℝ} {Z : ND ℝ} {a : ℕ} {q : List ℕ}
    (hk : k < A.shape.length) (hq : InR (A.shape.drop (k + 1)) q) :
    leftSketch (obliqueCols A L M (k + 1) l r G Z) L (k + 1) a q
      = ∑ b ∈ range r, colsOmega A.shape L M (k + 1) a b * ∑ c ∈ range l, G b c * leftSketch Z L (k + 1) c q := by
  have e : leftSketch (obliqueCols A L M (k + 1) l r G Z) L (k + 1) a q
      = sumIdx (A.shape.take (k + 1)) fun p => ∑ b ∈ range r, L (k + 1) p a * M (k + 1) p b
        * ∑ c ∈ range l, G b c * leftSketch Z L (k + 1) c q := by
    refine sumIdx_congr fun p hp => ?_
    have hp : InR (A.shape.take (k + 1)) p := hp
    beta_reduce
    rw [oblique_get_cols (by omega) hp hq, mul_sum]
    exact sum_congr rfl fun b _ => by ring
  rw [e, sumIdx_sum]
  refine sum_congr rfl fun b _ => ?_
  unfold colsOmega; rw [sumIdx_mul]

theorem oblique_idem_cols {A : ND ℝ} {L : Mats ℝ} {M : ℕ → List ℕ → ℕ → ℝ} {k l r : ℕ} {G : ℕ → ℕ → ℝ} {Z : ND ℝ} (hk : k < A.shape.length)
    (hG : matOf r l G * matOf l r (colsOmega A.shape L M (k + 1)) * matOf r l G = matOf r l G) :
    obliqueCols A L M (k + 1) l r G (obliqueCols A L M (k + 1) l r G Z) = obliqueCols A L M (k + 1) l r G Z := by
  refine ND.ext' rfl fun i hi => ?_
  have hi : InR A.shape i := hi
  rw [← List.take_append_drop (k + 1) i, oblique_get_cols (by omega) (hi.take _) (hi.drop _),
    oblique_get_cols (by omega) (hi.take _) (hi.drop _)]
  refine sum_congr rfl fun b hb => ?_
  congr 1
  have e : ∀ a ∈ range l, G b a * leftSketch (obliqueCols A L M (k + 1) l r G Z) L (k + 1) a (i.drop (k + 1))
      = ∑ c ∈ range l, ∑ b' ∈ range r, G b a * (colsOmega A.shape L M (k + 1) a b' * G b' c)
        * leftSketch Z L (k + 1) c (i.drop (k + 1)) := by
    intro a _
    rw [leftSketch_oblique_full_cols hk (hi.drop _), mul_sum, sum_comm]
    refine sum_congr rfl fun b' _ => ?_
    rw [mul_sum, mul_sum]
    exact sum_congr rfl fun c _ => by ring
  rw [sum_congr rfl e, sum_comm]
  refine sum_congr rfl fun c hc => ?_
  rw [← gag_entry hG (by simpa using hb) (by simpa using hc), sum_mul]
  exact sum_congr rfl fun a _ => (sum_mul _ _ _).symm

theorem oblique_fix_cols {A : ND ℝ} {L : Mats ℝ} {M : ℕ → List ℕ → ℕ → ℝ} {k l r : ℕ} {G : ℕ → ℕ → ℝ} {Z : ND ℝ} (hk : k < A.shape.length)
    (hZ : Z.shape = A.shape) (hG : matOf r l G * matOf l r (colsOmega A.shape L M (k + 1)) = 1)
    {B : ℕ → List ℕ → ℝ} (hB : ∀ p q, InR (A.shape.take (k + 1)) p → InR (A.shape.drop (k + 1)) q →
      Z.get (p ++ q) = ∑ b ∈ range r, M (k + 1) p b * B b q) :
    obliqueCols A L M (k + 1) l r G Z = Z := by
  refine ND.ext' hZ.symm fun i hi => ?_
  have hi : InR A.shape i := hi
  rw [← List.take_append_drop (k + 1) i, oblique_get_cols (by omega) (hi.take _) (hi.drop _), hB _ _ (hi.take _) (hi.drop _)]
  refine sum_congr rfl fun b hb => ?_
  congr 1
  have e1 : ∀ a, leftSketch Z L (k + 1) a (i.drop (k + 1))
      = ∑ b' ∈ range r, colsOmega A.shape L M (k + 1) a b' * B b' (i.drop (k + 1)) := by
    intro a
    have : leftSketch Z L (k + 1) a (i.drop (k + 1)) = sumIdx (A.shape.take (k + 1)) fun p =>
        ∑ b' ∈ range r, L (k + 1) p a * M (k + 1) p b' * B b' (i.drop (k + 1)) := by
      unfold leftSketch
      rw [hZ]
      refine sumIdx_congr fun p hp => ?_
      rw [hB p _ hp (hi.drop _), mul_sum]
      exact sum_congr rfl fun b' _ => (mul_assoc _ _ _).symm
    rw [this, sumIdx_sum]
    refine sum_congr rfl fun b' _ => ?_
    unfold colsOmega; rw [sumIdx_mul]
  have e2 : ∀ b' ∈ range r, ∑ a ∈ range l, G b a * colsOmega A.shape L M (k + 1) a b' = if b = b' then 1 else 0 := by
    intro b' hb'
    have := congrFun (congrFun hG ⟨b, by simpa using hb⟩) ⟨b', by simpa using hb'⟩
    rw [Matrix.mul_apply, Matrix.one_apply] at this
    simp only [Fin.mk.injEq] at this
    rw [← this, sum_range]
    rfl
  calc ∑ a ∈ range l, G b a * leftSketch Z L (k + 1) a (i.drop (k + 1))
      = ∑ a ∈ range l, ∑ b' ∈ range r, G b a * colsOmega A.shape L M (k + 1) a b' * B b' (i.drop (k + 1)) := by
        refine sum_congr rfl fun a _ => ?_
        rw [e1, mul_sum]
        exact sum_congr rfl fun b' _ => (mul_assoc _ _ _).symm
    _ = ∑ b' ∈ range r, (if b = b' then 1 else 0) * B b' (i.drop (k + 1)) := by
        rw [sum_comm]
        exact sum_congr rfl fun b' hb' => by rw [← sum_mul, e2 b' hb']
    _ = B b (i.drop (k + 1)) := by simp_all

theorem nystrom_le_range_cols {A : ND ℝ} {L : Mats ℝ} {M : ℕ → List ℕ → ℕ → ℝ} {k l r : ℕ} {G : ℕ → ℕ → ℝ} {c : ℝ} (hk : k < A.shape.length)
    (hG : matOf r l G * matOf l r (colsOmega A.shape L M (k + 1)) = 1)
    (hc : ∀ Z : ND ℝ, Z.shape = A.shape → √(normSq (obliqueCols A L M (k + 1) l r G Z)) ≤ c * √(normSq Z))
    (B : ℕ → List ℕ → ℝ) :
    √(distSq A (obliqueCols A L M (k + 1) l r G A)) ≤ (1 + c) * √(colsErrSq A M (k + 1) r B) := by
  let W : ND ℝ := ND.ofFn A.shape fun i => ∑ b ∈ range r, M (k + 1) (i.take (k + 1)) b * B b (i.drop (k + 1))
  have hW : colsErrSq A M (k + 1) r B = normSq (A.minus W) := by
    rw [normSq_minus]
    refine sumIdx_congr fun i hi => ?_
    simp only [W]
    rw [ND.ofFn_get hi]
  have hfix : obliqueCols A L M (k + 1) l r G W = W := by
    refine oblique_fix_cols hk rfl hG (B := B) fun p q hp hq => ?_
    have hl : p.length = k + 1 := by rw [hp.length, List.length_take]; omega
    have hi : InR A.shape (p ++ q) := by
      have := hp.append hq
      rwa [List.take_append_drop] at this
    simp only [W]
    rw [ND.ofFn_get hi, List.take_left' hl, List.drop_left' hl]
  have h1 := hc (A.minus W) rfl
  have h2 := oblique_minus_cols (A := A) (Z := A) (W := W) (L := L) (M := M) (l := l) (r := r) (G := G) rfl rfl
    (show k + 1 ≤ A.shape.length by omega)
  rw [h2, hfix, normSq_minus, normSq_minus, sqrt_distSq, sqrt_distSq] at h1
  rw [hW, normSq_minus, sqrt_distSq, sqrt_distSq, add_mul, one_mul]
  refine le_trans ?_ (add_le_add_right h1 _)
  rw [oblique_shape_cols]
  set a := Props.vec A.shape A.get
  set w := Props.vec A.shape W.get
  set o := Props.vec A.shape (obliqueCols A L M (k + 1) l r G A).get
  calc ‖a - o‖ = ‖(a - w) - (o - w)‖ := by congr 1; abel
    _ ≤ ‖a - w‖ + ‖o - w‖ := norm_sub_le _ _

end TTS
