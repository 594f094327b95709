import Verif.Proofs.Nystrom
import Verif.Proofs.GmresVec

/-! The tensor train of a streaming sketch is the product of the oblique projections. -/

namespace TTS

open Finset Matrix

theorem inR_take_unsnoc {sh P : List ℕ} {m : ℕ} (hm : m < sh.length) (hP : InR (sh.take (m + 1)) P) :
    ∃ p i, InR (sh.take m) p ∧ i < sh.getD m 0 ∧ P = p ++ [i] := by
  rw [take_succ_getD hm 0] at hP
  have hlen := hP.length
  rw [List.length_append, List.length_take, List.length_singleton] at hlen
  have hl : P.take m ++ P.drop m = P := List.take_append_drop _ _
  have h1 := hP.take m
  have h2 := hP.drop m
  have hlt : (sh.take m).length = m := by rw [List.length_take]; omega
  rw [List.take_append_of_le_length (by omega), List.take_take, min_self] at h1
  rw [List.drop_append_of_le_length (by omega), List.drop_take, Nat.sub_self, List.take_zero, List.nil_append] at h2
  obtain ⟨i, hi⟩ : ∃ i, P.drop m = [i] := by
    rw [← List.length_eq_one_iff, List.length_drop]; omega
  rw [hi] at h2
  refine ⟨P.take m, i, h1, h2.1, ?_⟩
  rw [← hi, hl]

@[simp] theorem oblique_shape (A : ND ℝ) (L R : Mats ℝ) (k l r : ℕ) (G : ℕ → ℕ → ℝ) (Z : ND ℝ) :
    (oblique A L R k l r G Z).shape = A.shape := rfl

theorem obliques_shape (A : ND ℝ) (L R : Mats ℝ) (l r : List ℕ) (G : ℕ → ℕ → ℕ → ℝ) :
    ∀ (k : ℕ) (Z : ND ℝ), Z.shape = A.shape → (obliques A L R l r G k Z).shape = A.shape
  | 0, _, h => h
  | k + 1, _, _ => obliques_shape A L R l r G k _ rfl

theorem oblique_get {A : ND ℝ} {L R : Mats ℝ} {k l r : ℕ} {G : ℕ → ℕ → ℝ} {Z : ND ℝ} {p q : List ℕ}
    (hk : k ≤ A.shape.length) (hp : InR (A.shape.take k) p) (hq : InR (A.shape.drop k) q) :
    (oblique A L R k l r G Z).get (p ++ q) = ∑ b ∈ range r, rightSketch A R k p b
      * ∑ a ∈ range l, G b a * leftSketch Z L k a q := by
  have hl : p.length = k := by rw [hp.length, List.length_take]; omega
  have hi : InR A.shape (p ++ q) := by
    have := hp.append hq
    rwa [List.take_append_drop] at this
  unfold oblique
  rw [ND.ofFn_get hi, List.take_left' hl, List.drop_left' hl]

/-- The left sketch of a projected array, one mode left open. -/
theorem leftSketch_oblique {A : ND ℝ} {L R : Mats ℝ} {k l r : ℕ} {G : ℕ → ℕ → ℝ} {Z : ND ℝ} {a j : ℕ} {q : List ℕ}
    (hk : k < A.shape.length) (hj : j < A.shape.getD k 0) (hq : InR (A.shape.drop (k + 1)) q) :
    leftSketch (oblique A L R (k + 1) l r G Z) L k a (j :: q)
      = ∑ b ∈ range r, psiSpec A.shape A.get L R k a j b * ∑ c ∈ range l, G b c * leftSketch Z L (k + 1) c q := by
  have e : leftSketch (oblique A L R (k + 1) l r G Z) L k a (j :: q)
      = sumIdx (A.shape.take k) fun p => ∑ b ∈ range r, L k p a * rightSketch A R (k + 1) (p ++ [j]) b
        * ∑ c ∈ range l, G b c * leftSketch Z L (k + 1) c q := by
    refine sumIdx_congr fun p hp => ?_
    have := oblique_get (A := A) (L := L) (R := R) (l := l) (r := r) (G := G) (Z := Z) (by omega)
      (inR_take_snoc hk hp hj) hq
    rw [List.append_assoc] at this
    beta_reduce
    rw [show p ++ j :: q = p ++ ([j] ++ q) from rfl, this, mul_sum]
    exact sum_congr rfl fun b _ => by ring
  rw [e, sumIdx_sum]
  refine sum_congr rfl fun b _ => ?_
  rw [psiSpec_right, sumIdx_mul]
  rfl

theorem leftSketch_zero {Z : ND ℝ} {L : Mats ℝ} (hL : ∀ a, L 0 [] a = 1) (a : ℕ) (q : List ℕ) :
    leftSketch Z L 0 a q = Z.get q := by
  simp [leftSketch, sumIdx, hL]

/-- Direction `right`. -/
theorem obliques_right {A : ND ℝ} {L R : Mats ℝ} {lr rr : List ℕ} {G : ℕ → ℕ → ℕ → ℝ} {cs : List (ND ℝ)}
    (hl : lr.length = A.shape.length - 1) (hlen : cs.length = A.shape.length) (hL : ∀ a, L 0 [] a = 1)
    (h : Cores cs (fun k => (1 :: lr ++ [1]).getD k 0) fun k => A.shape.getD k 0)
    (hcs : ∀ k < A.shape.length - 1, ∀ a < (1 :: lr).getD k 0, ∀ j < A.shape.getD k 0, ∀ c < lr.getD k 0,
      (cs.getD k (ND.zeros [])).get [a, j, c] = ∑ b ∈ range (rr.getD k 0), psiSpec A.shape A.get L R k a j b * G k b c) :
    ∀ k ≤ A.shape.length - 1, ∀ Z : ND ℝ, Z.shape = A.shape → ∀ p q, InR (A.shape.take k) p → InR (A.shape.drop k) q →
      (obliques A L R lr rr G k Z).get (p ++ q)
        = ∑ a ∈ range ((1 :: lr).getD k 0), coreMats cs k p a * leftSketch Z L k a q
  | 0, _, Z, _, p, q, hp, hq => by
    have : p = [] := by simpa using hp.length
    subst this
    show Z.get q = _
    simp [coreMats, leftSketch_zero hL]
  | k + 1, hk, Z, hZ, p, q, hp, hq => by
    obtain ⟨p, j, hp1, hj, rfl⟩ := inR_take_unsnoc (by omega) hp
    clear hp
    rename' hp1 => hp
    have ih := obliques_right hl hlen hL h hcs k (by omega)
      (oblique A L R (k + 1) (lr.getD k 0) (rr.getD k 0) (G k) Z) rfl p (j :: q) hp (by
        rw [drop_eq_getD_cons (by omega)]; exact ⟨hj, hq⟩)
    show (obliques A L R lr rr G k (oblique A L R (k + 1) (lr.getD k 0) (rr.getD k 0) (G k) Z)).get _ = _
    rw [List.append_assoc, List.singleton_append, ih, List.getD_cons_succ]
    have hpl : p.length = k := by rw [hp.length, List.length_take]; omega
    have e1 : ∀ t ∈ range (lr.getD k 0), coreMats cs (k + 1) (p ++ [j]) t * leftSketch Z L (k + 1) t q
        = ∑ a ∈ range ((1 :: lr).getD k 0), coreMats cs k p a *
          ((cs.getD k (ND.zeros [])).get [a, j, t] * leftSketch Z L (k + 1) t q) := by
      intro t ht
      rw [coreMats_succ h rfl (by omega) hpl, sum_mul, aug_left (by omega)]
      exact sum_congr rfl fun a _ => mul_assoc _ _ _
    rw [sum_congr rfl e1, sum_comm]
    refine sum_congr rfl fun a ha => ?_
    rw [← mul_sum, leftSketch_oblique (by omega) hj hq]
    congr 1
    have e2 : ∀ t ∈ range (lr.getD k 0), (cs.getD k (ND.zeros [])).get [a, j, t] * leftSketch Z L (k + 1) t q
        = ∑ b ∈ range (rr.getD k 0), psiSpec A.shape A.get L R k a j b * (G k b t * leftSketch Z L (k + 1) t q) := by
      intro t ht
      rw [hcs k (by omega) a (by simpa using ha) j hj t (by simpa using ht), sum_mul]
      exact sum_congr rfl fun b _ => mul_assoc _ _ _
    rw [sum_congr rfl e2, sum_comm]
    exact sum_congr rfl fun b _ => mul_sum _ _ _

/-- Direction `left`. -/
theorem obliques_left {A : ND ℝ} {L R : Mats ℝ} {lr rr : List ℕ} {G : ℕ → ℕ → ℕ → ℝ} {cs : List (ND ℝ)}
    (hr : rr.length = A.shape.length - 1) (hlen : cs.length = A.shape.length) (hL : ∀ a, L 0 [] a = 1)
    (h : Cores cs (fun k => (1 :: rr ++ [1]).getD k 0) fun k => A.shape.getD k 0)
    (h0 : ∀ j < A.shape.getD 0 0, ∀ b < rr.getD 0 0, (cs.getD 0 (ND.zeros [])).get [0, j, b] = rightSketch A R 1 [j] b)
    (hcs : ∀ k < A.shape.length - 1, ∀ b < rr.getD k 0, ∀ j < A.shape.getD (k + 1) 0, ∀ c < (rr ++ [1]).getD (k + 1) 0,
      (cs.getD (k + 1) (ND.zeros [])).get [b, j, c]
        = ∑ i ∈ range (lr.getD k 0), G k b i * psiSpec A.shape A.get L R (k + 1) i j c) :
    ∀ k < A.shape.length - 1, ∀ Z : ND ℝ, Z.shape = A.shape → ∀ p q, InR (A.shape.take (k + 1)) p →
      InR (A.shape.drop (k + 1)) q → (obliques A L R lr rr G (k + 1) Z).get (p ++ q)
        = ∑ b ∈ range (rr.getD k 0), coreMats cs (k + 1) p b * ∑ a ∈ range (lr.getD k 0), G k b a * leftSketch Z L (k + 1) a q
  | 0, hk, Z, _, p, q, hp, hq => by
    obtain ⟨p, j, hp', hj, rfl⟩ := inR_take_unsnoc (by omega) hp
    have : p = [] := by simpa using hp'.length
    subst this
    show (oblique A L R 1 _ _ (G 0) Z).get _ = _
    rw [oblique_get (by omega) hp hq]
    refine sum_congr rfl fun b hb => ?_
    rw [coreMats_succ h rfl (mu := 0) (by omega) rfl]
    congr 1
    refine (h0 j hj b (by simpa using hb)).symm.trans ?_
    simp [coreMats]
  | k + 1, hk, Z, hZ, p, q, hp, hq => by
    obtain ⟨p, j, hp1, hj, rfl⟩ := inR_take_unsnoc (by omega) hp
    clear hp
    rename' hp1 => hp
    have ih := obliques_left hr hlen hL h h0 hcs k (by omega)
      (oblique A L R (k + 1 + 1) (lr.getD (k + 1) 0) (rr.getD (k + 1) 0) (G (k + 1)) Z) rfl p (j :: q) hp (by
        rw [drop_eq_getD_cons (by omega)]; exact ⟨hj, hq⟩)
    show (obliques A L R lr rr G (k + 1) (oblique A L R (k + 1 + 1) (lr.getD (k + 1) 0) (rr.getD (k + 1) 0) (G (k + 1)) Z)).get _ = _
    rw [List.append_assoc, List.singleton_append, ih]
    have hpl : p.length = k + 1 := by rw [hp.length, List.length_take]; omega
    have e1 : ∀ c ∈ range (rr.getD (k + 1) 0), coreMats cs (k + 1 + 1) (p ++ [j]) c
          * (∑ a ∈ range (lr.getD (k + 1) 0), G (k + 1) c a * leftSketch Z L (k + 1 + 1) a q)
        = ∑ b ∈ range (rr.getD k 0), coreMats cs (k + 1) p b * ((cs.getD (k + 1) (ND.zeros [])).get [b, j, c]
          * (∑ a ∈ range (lr.getD (k + 1) 0), G (k + 1) c a * leftSketch Z L (k + 1 + 1) a q)) := by
      intro c hc
      rw [coreMats_succ h rfl (by omega) hpl, sum_mul, aug_left (by omega), List.getD_cons_succ]
      exact sum_congr rfl fun a _ => mul_assoc _ _ _
    rw [sum_congr rfl e1, sum_comm]
    refine sum_congr rfl fun b hb => ?_
    rw [← mul_sum]
    congr 1
    have e2 : ∀ c ∈ range (rr.getD (k + 1) 0), (cs.getD (k + 1) (ND.zeros [])).get [b, j, c]
          * (∑ a ∈ range (lr.getD (k + 1) 0), G (k + 1) c a * leftSketch Z L (k + 1 + 1) a q)
        = ∑ i ∈ range (lr.getD k 0), G k b i * (psiSpec A.shape A.get L R (k + 1) i j c
          * (∑ a ∈ range (lr.getD (k + 1) 0), G (k + 1) c a * leftSketch Z L (k + 1 + 1) a q)) := by
      intro c hc
      rw [hcs k (by omega) b (by simpa using hb) j hj c (by
        rw [List.getD_append _ _ _ _ (by omega)]; simpa using hc), sum_mul]
      exact sum_congr rfl fun b _ => mul_assoc _ _ _
    rw [sum_congr rfl e2, sum_comm]
    refine sum_congr rfl fun i _ => ?_
    rw [leftSketch_oblique (by omega) hj hq, ← mul_sum]

/-! ### the assembled tensor train -/

theorem coreMats_full {cs : List (ND ℝ)} (h : 1 ≤ cs.length) (i : List ℕ) :
    ttEntry (TT.mk cs) i = coreMats cs cs.length i 0 := by
  unfold coreMats
  rw [if_neg (by omega), List.take_length]; rfl

theorem nystrom_right {env : Env ℝ} (hE : MPContract env) {A : ND ℝ} {L R : Mats ℝ} {lr rr : List ℕ}
    {G : ℕ → ℕ → ℕ → ℝ} (hd : 1 ≤ A.shape.length) (hl : lr.length = A.shape.length - 1)
    (hr : rr.length = A.shape.length - 1) (hL : ∀ a, L 0 [] a = 1) (hR : ∀ b, R A.shape.length [] b = 1)
    (hG : ∀ mu < A.shape.length - 1,
      IsPinv (((sketchOf A.shape A.get L R lr rr).omega.getD mu (ND.zeros [])).asMatrix (lr.getD mu 0) (rr.getD mu 0))
        (matOf (rr.getD mu 0) (lr.getD mu 0) (G mu))) :
    ∃ cs, assembleRight env (sketchOf A.shape A.get L R lr rr) = .ok cs ∧ (TT.mk cs).Valid ∧
      (TT.mk cs).toNumpy = obliques A L R lr rr G (A.shape.length - 1) A := by
  obtain ⟨cs, h1, h2, h3, h4, h5⟩ := assembleRight_gen (env := env) (Q := fun k C =>
      ∀ a < (1 :: lr).getD k 0, ∀ j < A.shape.getD k 0, ∀ c < lr.getD k 0,
      C.get [a, j, c] = ∑ b ∈ range (rr.getD k 0), psiSpec A.shape A.get L R k a j b * G k b c) hd hl hr
    (sketchOf_hasShape A.shape A.get L R lr rr) (by
      intro k hk P O hP hO hPs hOs
      subst hO
      obtain ⟨C, c1, c2, c3⟩ := rightCore_pinv hE hPs hOs (hG k hk)
      refine ⟨C, c1, c2, fun a ha j hj c hc => ?_⟩
      rw [c3 a ha j hj c hc]
      refine sum_congr rfl fun b hb => ?_
      rw [hP, sketchOf_psi_get (by omega) ha hj (by rw [List.getD_append _ _ _ _ (by omega)]; simpa using hb)])
  have hv : (TT.mk cs).Valid := h3.valid rfl (by omega) (aug_last (by omega))
  have hsh : (TT.mk cs).shape = A.shape := by rw [h3.ttShape, h2, ND.map_range_getD]
  refine ⟨cs, h1, hv, ND.ext' (by rw [TT.toNumpy_shape hv, hsh, obliques_shape _ _ _ _ _ _ _ _ rfl]) fun i hi => ?_⟩
  rw [TT.toNumpy_shape hv, hsh] at hi
  rw [TT.toNumpy_get hv]
  obtain ⟨p, j, hp, hj, rfl⟩ := inR_take_unsnoc (sh := A.shape) (m := A.shape.length - 1) (by omega) (by
    rwa [Nat.sub_add_cancel hd, List.take_length])
  have hpl : p.length = A.shape.length - 1 := by rw [hp.length, List.length_take]; omega
  have hdr : A.shape.drop (A.shape.length - 1) = [A.shape.getD (A.shape.length - 1) 0] := by
    rw [drop_eq_getD_cons (show A.shape.length - 1 < A.shape.length by omega), Nat.sub_add_cancel hd, List.drop_length]
  rw [obliques_right hl h2 hL h3 h5 _ le_rfl A rfl p [j] hp (by rw [hdr]; exact ⟨hj, trivial⟩),
    coreMats_full (by omega), h2]
  obtain ⟨d, hd'⟩ : ∃ d, A.shape.length = d + 1 := ⟨_, (Nat.sub_add_cancel hd).symm⟩
  have e := coreMats_succ h3 rfl (mu := A.shape.length - 1) (by omega) hpl j 0
  rw [Nat.sub_add_cancel hd] at e
  rw [e, aug_left (by omega)]
  refine sum_congr rfl fun a ha => ?_
  rw [h4, sketchOf_psi_get (by omega) (by simpa using ha) hj (by
    rw [List.getD_append_right rr [1] 0 (A.shape.length - 1) (by omega), hr, Nat.sub_self]; exact Nat.one_pos), psiSpec_last hd hR]
  rfl

theorem nystrom_left {env : Env ℝ} (hE : MPContract env) {A : ND ℝ} {L R : Mats ℝ} {lr rr : List ℕ}
    {G : ℕ → ℕ → ℕ → ℝ} (hd : 2 ≤ A.shape.length)
    (hr : rr.length = A.shape.length - 1) (hL : ∀ a, L 0 [] a = 1) (hR : ∀ b, R A.shape.length [] b = 1)
    (hG : ∀ mu < A.shape.length - 1,
      IsPinv (((sketchOf A.shape A.get L R lr rr).omega.getD mu (ND.zeros [])).asMatrix (lr.getD mu 0) (rr.getD mu 0))
        (matOf (rr.getD mu 0) (lr.getD mu 0) (G mu))) :
    ∃ cs, assembleLeft env (sketchOf A.shape A.get L R lr rr) = .ok cs ∧ (TT.mk cs).Valid ∧
      (TT.mk cs).toNumpy = obliques A L R lr rr G (A.shape.length - 1) A := by
  obtain ⟨cs, h1, h2, h3, h4, h5⟩ := assembleLeft_gen (env := env) (lr := lr) (Q := fun k C =>
      ∀ b < rr.getD k 0, ∀ j < A.shape.getD (k + 1) 0, ∀ c < (rr ++ [1]).getD (k + 1) 0,
      C.get [b, j, c] = ∑ i ∈ range (lr.getD k 0), G k b i * psiSpec A.shape A.get L R (k + 1) i j c) (by omega) hr
    (sketchOf_hasShape A.shape A.get L R lr rr) (by
      intro k hk P O hP hO hPs hOs
      subst hO
      obtain ⟨C, c1, c2, c3⟩ := leftCore_pinv hE hPs hOs (hG k hk)
      refine ⟨C, c1, c2, fun b hb j hj c hc => ?_⟩
      rw [c3 b hb j hj c hc]
      refine sum_congr rfl fun i hi => ?_
      rw [hP, sketchOf_psi_get (by omega) (by rw [List.getD_cons_succ]; simpa using hi) hj hc])
  have hv : (TT.mk cs).Valid := h3.valid rfl (by omega) (aug_last (by omega))
  have hsh : (TT.mk cs).shape = A.shape := by rw [h3.ttShape, h2, ND.map_range_getD]
  refine ⟨cs, h1, hv, ND.ext' (by rw [TT.toNumpy_shape hv, hsh, obliques_shape _ _ _ _ _ _ _ _ rfl]) fun i hi => ?_⟩
  rw [TT.toNumpy_shape hv, hsh] at hi
  rw [TT.toNumpy_get hv]
  obtain ⟨d, hd'⟩ : ∃ d, A.shape.length = d + 2 := ⟨A.shape.length - 2, by omega⟩
  obtain ⟨p, j, hp, hj, rfl⟩ := inR_take_unsnoc (sh := A.shape) (m := d + 1) (by omega) (by
    rwa [show d + 1 + 1 = A.shape.length by omega, List.take_length])
  have hpl : p.length = d + 1 := by rw [hp.length, List.length_take]; omega
  have hdr : A.shape.drop (d + 1) = [A.shape.getD (d + 1) 0] := by
    rw [drop_eq_getD_cons (show d + 1 < A.shape.length by omega), show d + 1 + 1 = A.shape.length by omega, List.drop_length]
  rw [show A.shape.length - 1 = d + 1 by omega]
  rw [obliques_left hr h2 hL h3 (fun j hj b hb => by
    rw [h4, sketchOf_psi_get (by omega) Nat.one_pos hj (by rwa [List.getD_append _ _ _ _ (by omega)]), psiSpec_first hL]
    rfl) h5 d (by omega) A rfl p [j] hp (by rw [hdr]; exact ⟨hj, trivial⟩), coreMats_full (by omega), h2]
  have e := coreMats_succ h3 rfl (mu := d + 1) (by omega) hpl j 0
  rw [show A.shape.length = d + 1 + 1 by omega, e, aug_left (by omega), List.getD_cons_succ]
  refine sum_congr rfl fun b hb => ?_
  congr 1
  rw [h5 d (by omega) b (by simpa using hb) j hj 0 (by
    rw [List.getD_append_right rr [1] 0 (d + 1) (by omega), show d + 1 - rr.length = 0 by omega]; exact Nat.one_pos)]
  refine sum_congr rfl fun a ha => ?_
  have := psiSpec_last (f := A.get) (L := L) (R := R) (by omega : 1 ≤ A.shape.length) hR a j 0
  rw [show A.shape.length - 1 = d + 1 by omega] at this
  rw [this]
  rfl

/-! ### the error -/

theorem leftSketch_minus {Z W : ND ℝ} (h : Z.shape = W.shape) {L : Mats ℝ} {k a : ℕ} {q : List ℕ}
    (hk : k ≤ Z.shape.length) (hq : InR (Z.shape.drop k) q) :
    leftSketch (Z.minus W) L k a q = leftSketch Z L k a q - leftSketch W L k a q := by
  unfold leftSketch
  rw [← h]
  rw [← sumIdx_sub]
  refine sumIdx_congr fun p hp => ?_
  have hp : InR (Z.shape.take k) p := hp
  have hi : InR Z.shape (p ++ q) := by
    have := InR.append hp hq
    rwa [List.take_append_drop] at this
  show L k p a * (ND.ofFn Z.shape _).get (p ++ q) = _
  rw [ND.ofFn_get hi]
  ring

theorem oblique_minus {A Z W : ND ℝ} (hZ : Z.shape = A.shape) (hW : W.shape = A.shape) {L R : Mats ℝ} {k l r : ℕ}
    {G : ℕ → ℕ → ℝ} (hk : k ≤ A.shape.length) :
    oblique A L R k l r G (Z.minus W) = (oblique A L R k l r G Z).minus (oblique A L R k l r G W) := by
  refine ND.ext' rfl fun i hi => ?_
  have hi : InR A.shape i := hi
  show _ = (ND.ofFn A.shape _).get i
  rw [ND.ofFn_get hi]
  unfold oblique
  rw [ND.ofFn_get hi, ND.ofFn_get hi, ND.ofFn_get hi, ← sum_sub_distrib]
  refine sum_congr rfl fun b _ => ?_
  rw [← mul_sub, ← sum_sub_distrib]
  congr 1
  refine sum_congr rfl fun a _ => ?_
  rw [leftSketch_minus (by rw [hZ, hW]) (by rw [hZ]; exact hk) (by rw [hZ]; exact hi.drop k)]
  ring

theorem obliques_minus {A : ND ℝ} {L R : Mats ℝ} {lr rr : List ℕ} {G : ℕ → ℕ → ℕ → ℝ} :
    ∀ (k : ℕ) (Z W : ND ℝ), k ≤ A.shape.length → Z.shape = A.shape → W.shape = A.shape →
      obliques A L R lr rr G k (Z.minus W) = (obliques A L R lr rr G k Z).minus (obliques A L R lr rr G k W)
  | 0, _, _, _, _, _ => rfl
  | k + 1, Z, W, hk, hZ, hW => by
    show obliques A L R lr rr G k (oblique _ _ _ _ _ _ _ _) = _
    rw [oblique_minus hZ hW hk, obliques_minus (A := A) k (oblique A L R (k + 1) (lr.getD k 0) (rr.getD k 0) (G k) Z)
      (oblique A L R (k + 1) (lr.getD k 0) (rr.getD k 0) (G k) W) (by omega) rfl rfl]
    rfl

theorem sqrt_normSq (Z : ND ℝ) : √(normSq Z) = ‖Props.vec Z.shape Z.get‖ := (Props.fnorm_eq Z.shape Z.get)

theorem sqrt_distSq (Z W : ND ℝ) : √(distSq Z W) = ‖Props.vec Z.shape Z.get - Props.vec Z.shape W.get‖ := by
  rw [← map_sub]
  exact Props.fnorm_eq Z.shape (Z.get - W.get)

theorem normSq_minus {Z W : ND ℝ} : normSq (Z.minus W) = distSq Z W := by
  refine sumIdx_congr fun i hi => ?_
  have hi : InR Z.shape i := hi
  show (ND.ofFn Z.shape _).get i ^ 2 = _
  rw [ND.ofFn_get hi]

theorem nystromErrSq_eq (A : ND ℝ) (L R : Mats ℝ) (k l r : ℕ) (G : ℕ → ℕ → ℝ) :
    nystromErrSq A L R k l r G = distSq A (oblique A L R k l r G A) := by
  refine sumIdx_congr fun i hi => ?_
  unfold oblique
  rw [ND.ofFn_get hi]

theorem obliques_bound {A : ND ℝ} {L R : Mats ℝ} {lr rr : List ℕ} {G : ℕ → ℕ → ℕ → ℝ} {c : ℕ → ℝ} {n : ℕ}
    (hc0 : ∀ k < n, 0 ≤ c k)
    (hc : ∀ k < n, ∀ Z : ND ℝ, Z.shape = A.shape →
      √(normSq (oblique A L R (k + 1) (lr.getD k 0) (rr.getD k 0) (G k) Z)) ≤ c k * √(normSq Z)) :
    ∀ k ≤ n, ∀ Z : ND ℝ, Z.shape = A.shape → √(normSq (obliques A L R lr rr G k Z)) ≤ (∏ m ∈ range k, c m) * √(normSq Z)
  | 0, _, Z, _ => by simp [obliques]
  | k + 1, hk, Z, hZ => by
    show √(normSq (obliques A L R lr rr G k _)) ≤ _
    refine (obliques_bound hc0 hc k (by omega) (oblique A L R (k + 1) (lr.getD k 0) (rr.getD k 0) (G k) Z) rfl).trans ?_
    rw [prod_range_succ, mul_assoc]
    exact mul_le_mul_of_nonneg_left (hc k (by omega) Z hZ)
      (prod_nonneg fun m hm => hc0 m (by have := mem_range.1 hm; omega))

/-- The error of the product of the projections. -/
theorem obliques_error {A : ND ℝ} {L R : Mats ℝ} {lr rr : List ℕ} {G : ℕ → ℕ → ℕ → ℝ} {c : ℕ → ℝ} {n : ℕ}
    (hn : n ≤ A.shape.length)
    (hc0 : ∀ k < n, 0 ≤ c k)
    (hc : ∀ k < n, ∀ Z : ND ℝ, Z.shape = A.shape →
      √(normSq (oblique A L R (k + 1) (lr.getD k 0) (rr.getD k 0) (G k) Z)) ≤ c k * √(normSq Z)) :
    ∀ k ≤ n, √(distSq A (obliques A L R lr rr G k A))
      ≤ ∑ m ∈ range k, (∏ i ∈ range m, c i) * √(nystromErrSq A L R (m + 1) (lr.getD m 0) (rr.getD m 0) (G m))
  | 0, _ => by
    have : distSq A A = 0 := sumIdx_eq_zero fun i _ => by simp
    simp [obliques, this]
  | k + 1, hk => by
    have ih := obliques_error hn hc0 hc k (by omega)
    set P := oblique A L R (k + 1) (lr.getD k 0) (rr.getD k 0) (G k) A with hP
    have hs1 := obliques_shape A L R lr rr G k A rfl
    have key : √(distSq (obliques A L R lr rr G k A) (obliques A L R lr rr G k P))
        ≤ (∏ i ∈ range k, c i) * √(nystromErrSq A L R (k + 1) (lr.getD k 0) (rr.getD k 0) (G k)) := by
      rw [nystromErrSq_eq, ← hP, ← normSq_minus, ← normSq_minus, ← obliques_minus k A P (by omega) rfl rfl]
      exact obliques_bound hc0 hc k (by omega) (A.minus P) rfl
    rw [sum_range_succ]
    refine le_trans ?_ (add_le_add ih key)
    rw [sqrt_distSq, sqrt_distSq, sqrt_distSq, hs1]
    exact norm_sub_le_norm_sub_add_norm_sub _ _ _

/-- The left sketch of a projected array. -/
theorem leftSketch_oblique' {A : ND ℝ} {L R : Mats ℝ} {k l r : ℕ} {G : ℕ → ℕ → ℝ} {Z : ND ℝ} {a : ℕ} {q : List ℕ}
    (hk : k < A.shape.length) (hq : InR (A.shape.drop (k + 1)) q) :
    leftSketch (oblique A L R (k + 1) l r G Z) L (k + 1) a q
      = ∑ b ∈ range r, omegaSpec A.shape A.get L R k a b * ∑ c ∈ range l, G b c * leftSketch Z L (k + 1) c q := by
  have e : leftSketch (oblique A L R (k + 1) l r G Z) L (k + 1) a q
      = sumIdx (A.shape.take (k + 1)) fun p => ∑ b ∈ range r, L (k + 1) p a * rightSketch A R (k + 1) p b
        * ∑ c ∈ range l, G b c * leftSketch Z L (k + 1) c q := by
    refine sumIdx_congr fun p hp => ?_
    have hp : InR (A.shape.take (k + 1)) p := hp
    beta_reduce
    rw [oblique_get (by omega) hp hq, mul_sum]
    exact sum_congr rfl fun b _ => by ring
  rw [e, sumIdx_sum]
  refine sum_congr rfl fun b _ => ?_
  rw [omegaSpec_right, sumIdx_mul]
  rfl

/-- The product `G Omega G` entry by entry. -/
theorem gag_entry {O : ℕ → ℕ → ℝ} {G : ℕ → ℕ → ℝ} {l r : ℕ} (h : matOf r l G * matOf l r O * matOf r l G = matOf r l G)
    {b c : ℕ} (hb : b < r) (hc : c < l) :
    ∑ a ∈ range l, ∑ b' ∈ range r, G b a * (O a b' * G b' c) = G b c := by
  have := congrFun (congrFun h ⟨b, hb⟩) ⟨c, hc⟩
  rw [Matrix.mul_assoc, Matrix.mul_apply] at this
  change _ = G b c at this
  rw [← this, sum_range]
  refine sum_congr rfl fun a _ => ?_
  rw [Matrix.mul_apply, mul_sum, sum_range]
  rfl

/-- The maps are projections. -/
theorem oblique_idem {A : ND ℝ} {L R : Mats ℝ} {k l r : ℕ} {G : ℕ → ℕ → ℝ} {Z : ND ℝ} (hk : k < A.shape.length)
    (hG : matOf r l G * matOf l r (omegaSpec A.shape A.get L R k) * matOf r l G = matOf r l G) :
    oblique A L R (k + 1) l r G (oblique A L R (k + 1) l r G Z) = oblique A L R (k + 1) l r G Z := by
  refine ND.ext' rfl fun i hi => ?_
  have hi : InR A.shape i := hi
  rw [← List.take_append_drop (k + 1) i, oblique_get (by omega) (hi.take _) (hi.drop _),
    oblique_get (by omega) (hi.take _) (hi.drop _)]
  refine sum_congr rfl fun b hb => ?_
  congr 1
  have e : ∀ a ∈ range l, G b a * leftSketch (oblique A L R (k + 1) l r G Z) L (k + 1) a (i.drop (k + 1))
      = ∑ c ∈ range l, ∑ b' ∈ range r, G b a * (omegaSpec A.shape A.get L R k a b' * G b' c)
        * leftSketch Z L (k + 1) c (i.drop (k + 1)) := by
    intro a _
    rw [leftSketch_oblique' hk (hi.drop _), mul_sum, sum_comm]
    refine sum_congr rfl fun b' _ => ?_
    rw [mul_sum, mul_sum]
    exact sum_congr rfl fun c _ => by ring
  rw [sum_congr rfl e, sum_comm]
  refine sum_congr rfl fun c hc => ?_
  rw [← gag_entry hG (by simpa using hb) (by simpa using hc), sum_mul]
  exact sum_congr rfl fun a _ => (sum_mul _ _ _).symm

/-- If `G` is a left inverse of `Omega`, the map fixes everything in the range of the right sketch. -/
theorem oblique_fix {A : ND ℝ} {L R : Mats ℝ} {k l r : ℕ} {G : ℕ → ℕ → ℝ} {Z : ND ℝ} (hk : k < A.shape.length)
    (hZ : Z.shape = A.shape) (hG : matOf r l G * matOf l r (omegaSpec A.shape A.get L R k) = 1)
    {B : ℕ → List ℕ → ℝ} (hB : ∀ p q, InR (A.shape.take (k + 1)) p → InR (A.shape.drop (k + 1)) q →
      Z.get (p ++ q) = ∑ b ∈ range r, rightSketch A R (k + 1) p b * B b q) :
    oblique A L R (k + 1) l r G Z = Z := by
  refine ND.ext' hZ.symm fun i hi => ?_
  have hi : InR A.shape i := hi
  rw [← List.take_append_drop (k + 1) i, oblique_get (by omega) (hi.take _) (hi.drop _), hB _ _ (hi.take _) (hi.drop _)]
  refine sum_congr rfl fun b hb => ?_
  congr 1
  have e1 : ∀ a, leftSketch Z L (k + 1) a (i.drop (k + 1))
      = ∑ b' ∈ range r, omegaSpec A.shape A.get L R k a b' * B b' (i.drop (k + 1)) := by
    intro a
    have : leftSketch Z L (k + 1) a (i.drop (k + 1)) = sumIdx (A.shape.take (k + 1)) fun p =>
        ∑ b' ∈ range r, L (k + 1) p a * rightSketch A R (k + 1) p b' * B b' (i.drop (k + 1)) := by
      unfold leftSketch
      rw [hZ]
      refine sumIdx_congr fun p hp => ?_
      rw [hB p _ hp (hi.drop _), mul_sum]
      exact sum_congr rfl fun b' _ => (mul_assoc _ _ _).symm
    rw [this, sumIdx_sum]
    refine sum_congr rfl fun b' _ => ?_
    rw [omegaSpec_right, sumIdx_mul]
    rfl
  have e2 : ∀ b' ∈ range r, ∑ a ∈ range l, G b a * omegaSpec A.shape A.get L R k a b' = if b = b' then 1 else 0 := by
    intro b' hb'
    have := congrFun (congrFun hG ⟨b, by simpa using hb⟩) ⟨b', by simpa using hb'⟩
    rw [Matrix.mul_apply, Matrix.one_apply] at this
    simp only [Fin.mk.injEq] at this
    rw [← this, sum_range]
    rfl
  calc ∑ a ∈ range l, G b a * leftSketch Z L (k + 1) a (i.drop (k + 1))
      = ∑ a ∈ range l, ∑ b' ∈ range r, G b a * omegaSpec A.shape A.get L R k a b' * B b' (i.drop (k + 1)) := by
        refine sum_congr rfl fun a _ => ?_
        rw [e1, mul_sum]
        exact sum_congr rfl fun b' _ => (mul_assoc _ _ _).symm
    _ = ∑ b' ∈ range r, (if b = b' then 1 else 0) * B b' (i.drop (k + 1)) := by
        rw [sum_comm]
        exact sum_congr rfl fun b' hb' => by rw [← sum_mul, e2 b' hb']
    _ = B b (i.drop (k + 1)) := by simp_all

/-- The error of one projection against the best approximation in the range. -/
theorem nystrom_le_range {A : ND ℝ} {L R : Mats ℝ} {k l r : ℕ} {G : ℕ → ℕ → ℝ} {c : ℝ} (hk : k < A.shape.length)
    (hG : matOf r l G * matOf l r (omegaSpec A.shape A.get L R k) = 1)
    (hc : ∀ Z : ND ℝ, Z.shape = A.shape → √(normSq (oblique A L R (k + 1) l r G Z)) ≤ c * √(normSq Z))
    (B : ℕ → List ℕ → ℝ) :
    √(nystromErrSq A L R (k + 1) l r G) ≤ (1 + c) * √(rangeErrSq A R (k + 1) r B) := by
  let W : ND ℝ := ND.ofFn A.shape fun i => ∑ b ∈ range r, rightSketch A R (k + 1) (i.take (k + 1)) b * B b (i.drop (k + 1))
  have hW : rangeErrSq A R (k + 1) r B = normSq (A.minus W) := by
    rw [normSq_minus]
    refine sumIdx_congr fun i hi => ?_
    simp only [W]
    rw [ND.ofFn_get hi]
  have hfix : oblique A L R (k + 1) l r G W = W := by
    refine oblique_fix hk rfl hG (B := B) fun p q hp hq => ?_
    have hl : p.length = k + 1 := by rw [hp.length, List.length_take]; omega
    have hi : InR A.shape (p ++ q) := by
      have := hp.append hq
      rwa [List.take_append_drop] at this
    simp only [W]
    rw [ND.ofFn_get hi, List.take_left' hl, List.drop_left' hl]
  have h1 := hc (A.minus W) rfl
  have h2 := oblique_minus (A := A) (Z := A) (W := W) (L := L) (R := R) (l := l) (r := r) (G := G) rfl rfl
    (show k + 1 ≤ A.shape.length by omega)
  rw [h2, hfix, normSq_minus, normSq_minus, sqrt_distSq, sqrt_distSq] at h1
  rw [nystromErrSq_eq, hW, normSq_minus, sqrt_distSq, sqrt_distSq, add_mul, one_mul]
  refine le_trans ?_ (add_le_add_right h1 _)
  rw [oblique_shape]
  set a := Props.vec A.shape A.get
  set w := Props.vec A.shape W.get
  set o := Props.vec A.shape (oblique A L R (k + 1) l r G A).get
  calc ‖a - o‖ = ‖(a - w) - (o - w)‖ := by congr 1; abel
    _ ≤ ‖a - w‖ + ‖o - w‖ := norm_sub_le _ _

/-- A generalised inverse of a matrix of full column rank is a left inverse. -/
theorem leftInv_of_rank {l r : ℕ} {M : Matrix (Fin l) (Fin r) ℝ} {G : Matrix (Fin r) (Fin l) ℝ} (h : M * G * M = M)
    (hr : M.rank = r) : G * M = 1 := by
  have hinj : Function.Injective M.mulVec := by
    have h1 := LinearMap.finrank_range_add_finrank_ker M.mulVecLin
    have h2 : Module.finrank ℝ (LinearMap.range M.mulVecLin) = r := hr
    rw [h2, Module.finrank_fin_fun] at h1
    have h3 : LinearMap.ker M.mulVecLin = ⊥ := Submodule.finrank_eq_zero.1 (by omega)
    exact LinearMap.ker_eq_bot.1 h3
  refine Matrix.ext_of_mulVec_single fun j => hinj ?_
  rw [Matrix.mulVec_mulVec, ← Matrix.mul_assoc, h, Matrix.one_mulVec]

end TTS
