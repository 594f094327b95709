import Verif.Props.Recover

/-! Transposing a sketch. -/

namespace TTS

open Finset

variable {K : Type*}

/-- Mode-reversed tensor train cores. -/
def coresT [Zero K] (cs : List (ND K)) : List (ND K) := cs.reverse.map fun P => P.transpose [2, 1, 0]

section
variable [CommRing K]

theorem rev_getD {α : Type*} (l : List α) {k : ℕ} (h : k < l.length) (z : α) :
    l.reverse.getD k z = l.getD (l.length - 1 - k) z := by
  rw [getD_eq (by simpa using h), getD_eq (by omega)]
  simp

theorem coresT_getD {cs : List (ND K)} {k : ℕ} (h : k < cs.length) :
    (coresT cs).getD k (ND.zeros []) = (cs.getD (cs.length - 1 - k) (ND.zeros [])).transpose [2, 1, 0] := by
  unfold coresT
  rw [getD_map_lt _ _ _ (by simpa using h) (ND.zeros []), rev_getD _ h]

theorem transpose210_twice {A : ND K} {a b c : ℕ} (hA : A.shape = [a, b, c]) :
    (A.transpose [2, 1, 0]).transpose [2, 1, 0] = A := by
  have h1 := ND.transpose210_shape hA
  refine nd3_ext (ND.transpose210_shape h1) hA fun x y z _ _ _ => ?_
  rw [ND.transpose210_get h1, ND.transpose210_get hA]

theorem matT_twice {A : ND K} {a b : ℕ} (hA : A.shape = [a, b]) : A.matT.matT = A := by
  have h1 := ND.matT_shape hA
  refine nd2_ext (ND.matT_shape h1) hA fun x y _ _ => ?_
  rw [ND.matT_get h1, ND.matT_get hA]

theorem list_ext_getD {α : Type*} {l m : List α} (z : α) (h : l.length = m.length)
    (hg : ∀ k < l.length, l.getD k z = m.getD k z) : l = m := by
  refine List.ext_getElem h fun k h1 h2 => ?_
  have := hg k h1
  rwa [getD_eq h1, getD_eq h2] at this

theorem coresT_twice {cs : List (ND K)} (h : ∀ k < cs.length, ∃ a b c, (cs.getD k (ND.zeros [])).shape = [a, b, c]) :
    coresT (coresT cs) = cs := by
  have hl : (coresT cs).length = cs.length := by simp [coresT]
  refine list_ext_getD (ND.zeros []) (by simp [coresT]) fun k hk => ?_
  have hk : k < cs.length := by simpa [coresT] using hk
  rw [coresT_getD (by omega), hl, coresT_getD (by omega), show cs.length - 1 - (cs.length - 1 - k) = k by omega]
  obtain ⟨a, b, c, e⟩ := h k hk
  exact transpose210_twice e

theorem aug_rev_left {rr : List ℕ} {k : ℕ} (h : k ≤ rr.length) :
    (rr ++ [1]).getD (rr.length - k) 0 = (1 :: rr.reverse).getD k 0 := by
  have e : 1 :: rr.reverse = (rr ++ [1]).reverse := by simp
  rw [e, rev_getD _ (by simp; omega)]
  congr 1
  simp

theorem aug_rev_right {lr : List ℕ} {k : ℕ} (h : k ≤ lr.length) :
    (1 :: lr).getD (lr.length - k) 0 = (lr.reverse ++ [1]).getD k 0 := by
  have e : lr.reverse ++ [1] = (1 :: lr).reverse := by simp
  rw [e, rev_getD _ (by simp; omega)]
  congr 1

/-- A container is determined by its arrays. -/
theorem Container.HasShape.ofCores_eq {s : Container K} {sh lr rr : List ℕ} (h : s.HasShape sh lr rr)
    (hl : lr.length = sh.length - 1) (hr : rr.length = sh.length - 1) (hd : 1 ≤ sh.length) :
    Container.ofCores s.psi s.omega = s := by
  obtain ⟨psi, om, a, b, c⟩ := s
  have h1 : a = sh := h.shape
  have h2 : b = lr := h.left
  have h3 : c = rr := h.right
  have h4 : psi.length = sh.length := h.psiLen
  have h5 := h.psi
  simp only at h5
  subst h1 h2 h3
  unfold Container.ofCores
  simp only [Container.mk.injEq, true_and]
  refine ⟨list_ext_getD 0 (by simp [h4]) fun k hk => ?_, list_ext_getD 0 (by simp [h4, hl]) fun k hk => ?_,
    list_ext_getD 0 (by simp [h4, hr]) fun k hk => ?_⟩
  · have hk : k < psi.length := by simpa using hk
    rw [getD_map_lt _ _ _ hk (ND.zeros []), ND.dim, h5 k (by omega)]; rfl
  · have hk : k + 1 < psi.length := by simp at hk; omega
    rw [getD_map_lt _ _ _ (by simp; omega) (ND.zeros []), getD_tail, ND.dim, h5 (k + 1) (by omega)]; rfl
  · have hk : k + 1 < psi.length := by simp at hk; omega
    rw [getD_map_lt _ _ _ (by simp; omega) (ND.zeros []), getD_dropLast (by omega), ND.dim, h5 k (by omega)]
    show (c ++ [1]).getD k 0 = _
    rw [List.getD_append _ _ _ _ (by omega)]

theorem Container.T_psi_getD {s : Container K} {k : ℕ} (h : k < s.psi.length) : s.T.psi.getD k (ND.zeros [])
    = (s.psi.getD (s.psi.length - 1 - k) (ND.zeros [])).transpose [2, 1, 0] := coresT_getD h

theorem Container.T_omega_getD {s : Container K} {k : ℕ} (h : k < s.omega.length) : s.T.omega.getD k (ND.zeros [])
    = (s.omega.getD (s.omega.length - 1 - k) (ND.zeros [])).matT := by
  show ((s.omega.reverse.map ND.matT).getD k _) = _
  rw [getD_map_lt _ _ _ (by simpa using h) (ND.zeros []), rev_getD _ h]

theorem Container.HasShape.T_psi_shape {s : Container K} {sh lr rr : List ℕ} (h : s.HasShape sh lr rr)
    (hl : lr.length = sh.length - 1) (hr : rr.length = sh.length - 1) {mu : ℕ} (hmu : mu < sh.length) :
    (s.T.psi.getD mu (ND.zeros [])).shape
      = [(1 :: rr.reverse).getD mu 0, sh.reverse.getD mu 0, (lr.reverse ++ [1]).getD mu 0] := by
  have h5 := h.psi (sh.length - 1 - mu) (by omega)
  rw [Container.T_psi_getD (by rw [h.psiLen]; exact hmu), h.psiLen, ND.transpose210_shape h5,
    rev_getD _ hmu, ← aug_rev_left (by omega), ← aug_rev_right (by omega), hl, hr]

theorem Container.HasShape.T_omega_shape {s : Container K} {sh lr rr : List ℕ} (h : s.HasShape sh lr rr)
    (hl : lr.length = sh.length - 1) (hr : rr.length = sh.length - 1) {mu : ℕ} (hmu : mu < sh.length - 1) :
    (s.T.omega.getD mu (ND.zeros [])).shape = [rr.reverse.getD mu 0, lr.reverse.getD mu 0] := by
  have h5 := h.omega (sh.length - 1 - 1 - mu) (by omega)
  rw [Container.T_omega_getD (by rw [h.omegaLen]; exact hmu), h.omegaLen, ND.matT_shape h5,
    rev_getD _ (by omega), rev_getD _ (by omega), hl, hr]

/-- Shape and ranks of a transposed sketch. -/
theorem Container.HasShape.T {s : Container K} {sh lr rr : List ℕ} (h : s.HasShape sh lr rr)
    (hl : lr.length = sh.length - 1) (hr : rr.length = sh.length - 1) (hd : 1 ≤ sh.length) :
    s.T.HasShape sh.reverse rr.reverse lr.reverse := by
  have hp : s.T.psi.length = sh.length := by simp [Container.T, Container.ofCores, h.psiLen]
  have ho : s.T.omega.length = sh.length - 1 := by simp [Container.T, Container.ofCores, h.omegaLen]
  have key : (Container.mk s.T.psi s.T.omega sh.reverse rr.reverse lr.reverse).HasShape sh.reverse rr.reverse lr.reverse := by
    refine ⟨rfl, rfl, rfl, by simp [hp], by simp [ho], fun mu hmu => ?_, fun mu hmu => ?_⟩
    · exact h.T_psi_shape hl hr (by simpa using hmu)
    · exact h.T_omega_shape hl hr (by simpa using hmu)
  have e := key.ofCores_eq (by simpa using hr) (by simpa using hl) (by simpa using hd)
  have e2 : s.T = Container.ofCores s.T.psi s.T.omega := rfl
  rw [e2]
  simp only at e
  rw [e]
  exact key

theorem Container.HasShape.T_T {s : Container K} {sh lr rr : List ℕ} (h : s.HasShape sh lr rr)
    (hl : lr.length = sh.length - 1) (hr : rr.length = sh.length - 1) (hd : 1 ≤ sh.length) : s.T.T = s := by
  have h1 : s.T.T.psi = s.psi := coresT_twice fun k hk => ⟨_, _, _, h.psi k (by rw [← h.psiLen]; exact hk)⟩
  have ho : s.T.omega.length = s.omega.length := by simp [Container.T, Container.ofCores]
  have h2 : s.T.T.omega = s.omega := by
    refine list_ext_getD (ND.zeros []) (by simp [Container.T, Container.ofCores]) fun k hk => ?_
    have hk : k < s.omega.length := by simpa [Container.T, Container.ofCores] using hk
    rw [Container.T_omega_getD (by omega), ho, Container.T_omega_getD (by omega),
      show s.omega.length - 1 - (s.omega.length - 1 - k) = k by omega]
    exact matT_twice (h.omega k (by rw [← h.omegaLen]; exact hk))
  rw [show s.T.T = Container.ofCores s.T.T.psi s.T.T.omega from rfl, h1, h2, h.ofCores_eq hl hr hd]

/-! ### reassembling -/

theorem matT_eq_of {A B : ND K} {m n : ℕ} (hA : A.shape = [m, n]) (hB : B.shape = [n, m])
    (h : ∀ i < n, ∀ j < m, B.get [i, j] = A.get [j, i]) : A.matT = B := by
  refine nd2_ext (ND.matT_shape hA) hB fun i j hi hj => ?_
  rw [ND.matT_get hA, h i hi j hj]

/-- One core: direction `right` on the transposed data is the transposed core of direction `left`. -/
theorem core_T {env : Env K} (hE : PinvContract env) {P O : ND K} {l n a r : ℕ} (hP : P.shape = [l, n, a])
    (hO : O.shape = [l, r]) :
    ∃ C, (leftMulPinv env O (P.reshape [l, n * a])).reshape? [r, n, a] = .ok C ∧ C.shape = [r, n, a] ∧
      (rightMulPinv env ((P.transpose [2, 1, 0]).reshape [a * n, l]) O.matT).reshape? [a, n, r]
        = .ok (C.transpose [2, 1, 0]) := by
  obtain ⟨G, -, hG⟩ := hE O l r hO
  have hM : (P.reshape [l, n * a]).shape = [l, n * a] := rfl
  have hPt := ND.transpose210_shape hP
  have hM' : ((P.transpose [2, 1, 0]).reshape [a * n, l]).shape = [a * n, l] := rfl
  obtain ⟨h1, h2⟩ := hG _ _ hM
  obtain ⟨h3, h4⟩ := hG _ _ (ND.matT_shape hM')
  have h5 := ND.matT_shape h3
  refine ⟨_, reshape?_ok h1 (by simp), rfl, ?_⟩
  unfold rightMulPinv
  rw [matT_twice hO, reshape?_ok h5 (by simp [mul_assoc])]
  congr 1
  refine nd3_ext rfl (ND.transpose210_shape rfl) fun b j c hb hj hc => ?_
  have hbj : b * n + j < a * n := (ND.lt_mul_iff hj).2 hb
  have hjb : j * a + b < n * a := (ND.lt_mul_iff hb).2 hj
  rw [ND.transpose210_get (A := ND.reshape _ _) rfl, ND.reshape_split12 h5 b j c hj, ND.matT_get h3, h4 c hc _ hbj,
    leftMulPinv, ND.reshape_split23 h1 c j b hb, h2 c hc _ hjb]
  refine sum_congr rfl fun i _ => ?_
  rw [ND.matT_get hM', ND.reshape_merge12 hPt b j i hj, ND.transpose210_get hP, ND.reshape_merge23 hP i j b hb]

theorem dim0_of {A : ND K} {m n : ℕ} (h : A.shape = [m, n]) : A.dim 0 = m := by simp [ND.dim, h]
theorem dim1_of {A : ND K} {m n : ℕ} (h : A.shape = [m, n]) : A.dim 1 = n := by simp [ND.dim, h]

theorem headD_getD {α : Type*} (l : List α) (z : α) : l.headD z = l.getD 0 z := by cases l <;> rfl

/-- Direction `right` on the transposed sketch transposes direction `left` on the sketch. -/
theorem assembleRight_T {env : Env K} (hE : PinvContract env) {s : Container K} {sh lr rr : List ℕ}
    (hd : 1 ≤ sh.length) (hl : lr.length = sh.length - 1) (hr : rr.length = sh.length - 1) (hs : s.HasShape sh lr rr) :
    ∃ cs, assembleLeft env s = .ok cs ∧ assembleRight env s.T = .ok (coresT cs) ∧
      ∀ k < cs.length, ∃ a b c, (cs.getD k (ND.zeros [])).shape = [a, b, c] := by
  have hT := hs.T hl hr hd
  have hzl : (s.psi.tail.zip s.omega).length = sh.length - 1 := by simp [hs.psiLen, hs.omegaLen]
  have key : ∀ k < sh.length - 1, (s.psi.tail.zip s.omega).getD k (ND.zeros [], ND.zeros [])
        = (s.psi.getD (k + 1) (ND.zeros []), s.omega.getD k (ND.zeros [])) := by
    intro k hk
    rw [getD_zip (by simpa [hs.psiLen] using hk) (by rw [hs.omegaLen]; exact hk), getD_tail]
  have hpsi : ∀ k < sh.length - 1, (s.psi.getD (k + 1) (ND.zeros [])).shape
      = [lr.getD k 0, sh.getD (k + 1) 0, (rr ++ [1]).getD (k + 1) 0] := by
    intro k hk
    rw [hs.psi (k + 1) (by omega), List.getD_cons_succ]
  obtain ⟨cs, h1, h2, h3⟩ := mapM_exists (f := fun po : ND K × ND K =>
      (leftMulPinv env po.2 (po.1.reshape [po.1.dim 0, po.1.dim 1 * po.1.dim 2])).reshape?
        [po.2.dim 1, po.1.dim 1, po.1.dim 2])
    (Q := fun k C => (∃ a b c, C.shape = [a, b, c]) ∧
      (rightMulPinv env (((s.psi.getD (k + 1) (ND.zeros [])).transpose [2, 1, 0]).reshape
        [(rr ++ [1]).getD (k + 1) 0 * sh.getD (k + 1) 0, lr.getD k 0]) (s.omega.getD k (ND.zeros [])).matT).reshape?
        [(rr ++ [1]).getD (k + 1) 0, sh.getD (k + 1) 0, rr.getD k 0] = .ok (C.transpose [2, 1, 0]))
    (ND.zeros [], ND.zeros []) (ND.zeros []) (l := s.psi.tail.zip s.omega) (by
      intro k hk
      rw [hzl] at hk
      rw [key k hk]
      have hP := hpsi k hk
      have hO := hs.omega k hk
      rw [(dim_of_shape3 hP).1, (dim_of_shape3 hP).2.1, (dim_of_shape3 hP).2.2, dim1_of hO]
      obtain ⟨C, e1, e2, e3⟩ := core_T hE hP hO
      exact ⟨C, e1, ⟨_, _, _, e2⟩, e3⟩)
  rw [hzl] at h2 h3
  have hpT : s.T.psi.length = sh.length := by rw [hT.psiLen, List.length_reverse]
  have hoT : s.T.omega.length = sh.length - 1 := by rw [hT.omegaLen, List.length_reverse]
  have hzl' : (s.T.psi.dropLast.zip s.T.omega).length = sh.length - 1 := by simp [hpT, hoT]
  have key' : ∀ k < sh.length - 1, (s.T.psi.dropLast.zip s.T.omega).getD k (ND.zeros [], ND.zeros [])
        = ((s.psi.getD (sh.length - 2 - k + 1) (ND.zeros [])).transpose [2, 1, 0],
           (s.omega.getD (sh.length - 2 - k) (ND.zeros [])).matT) := by
    intro k hk
    rw [getD_zip (by simpa [hpT] using hk) (by rw [hoT]; exact hk), getD_dropLast (by rw [hpT]; exact hk),
      Container.T_psi_getD (by rw [hs.psiLen]; omega), Container.T_omega_getD (by rw [hs.omegaLen]; omega), hs.psiLen,
      hs.omegaLen, show sh.length - 1 - k = sh.length - 2 - k + 1 by omega, show sh.length - 1 - 1 - k = sh.length - 2 - k by omega]
  refine ⟨s.psi.headD (ND.zeros []) :: cs, ?_, ?_, ?_⟩
  · unfold assembleLeft
    rw [h1]
  · have hm : (s.T.psi.dropLast.zip s.T.omega).mapM (fun po : ND K × ND K =>
        (rightMulPinv env (po.1.reshape [po.1.dim 0 * po.1.dim 1, po.1.dim 2]) po.2).reshape?
        [po.1.dim 0, po.1.dim 1, po.2.dim 0]) = .ok (coresT cs) := by
      obtain ⟨cs', g1, g2, g3⟩ := mapM_exists (f := fun po : ND K × ND K =>
        (rightMulPinv env (po.1.reshape [po.1.dim 0 * po.1.dim 1, po.1.dim 2]) po.2).reshape?
          [po.1.dim 0, po.1.dim 1, po.2.dim 0])
        (Q := fun k C => C = (cs.getD (sh.length - 2 - k) (ND.zeros [])).transpose [2, 1, 0])
        (ND.zeros [], ND.zeros []) (ND.zeros []) (l := s.T.psi.dropLast.zip s.T.omega) (by
          intro k hk
          rw [hzl'] at hk
          rw [key' k hk]
          have hP := ND.transpose210_shape (hpsi (sh.length - 2 - k) (by omega))
          have hO := ND.matT_shape (hs.omega (sh.length - 2 - k) (by omega))
          rw [(dim_of_shape3 hP).1, (dim_of_shape3 hP).2.1, (dim_of_shape3 hP).2.2, dim0_of hO]
          exact ⟨_, (h3 (sh.length - 2 - k) (by omega)).2, rfl⟩)
      rw [g1]
      congr 1
      rw [hzl'] at g2 g3
      refine list_ext_getD (ND.zeros []) (by simp [coresT, g2, h2]) fun k hk => ?_
      rw [g3 k (by omega), coresT_getD (by omega), h2, show sh.length - 1 - 1 - k = sh.length - 2 - k by omega]
    unfold assembleRight
    rw [hm]
    show Except.ok _ = _
    congr 1
    rw [getLastD_eq, hpT, Container.T_psi_getD (by rw [hs.psiLen]; omega), hs.psiLen, Nat.sub_self, headD_getD]
    simp [coresT]
  · intro k hk
    cases k with
    | zero => exact ⟨_, _, _, by rw [List.getD_cons_zero, headD_getD]; exact hs.psi 0 (by omega)⟩
    | succ k =>
      simp only [List.length_cons, h2] at hk
      rw [List.getD_cons_succ]
      exact (h3 k (by omega)).1

/-- Direction `left` on the transposed sketch transposes direction `right` on the sketch. -/
theorem assembleLeft_T {env : Env K} (hE : PinvContract env) {s : Container K} {sh lr rr : List ℕ}
    (hd : 1 ≤ sh.length) (hl : lr.length = sh.length - 1) (hr : rr.length = sh.length - 1) (hs : s.HasShape sh lr rr) :
    ∃ cs, assembleRight env s = .ok cs ∧ assembleLeft env s.T = .ok (coresT cs) := by
  obtain ⟨cs, h1, h2, h3⟩ := assembleRight_T hE (s := s.T) (sh := sh.reverse) (by simpa using hd) (by simpa using hr)
    (by simpa using hl) (hs.T hl hr hd)
  rw [hs.T_T hl hr hd] at h2
  exact ⟨_, h2, by rw [h1, coresT_twice h3]⟩

/-! ### the transposed sketch as a sketch of the transposed array -/

theorem take_rev (sh : List ℕ) (k : ℕ) : sh.reverse.take k = (sh.drop (sh.length - k)).reverse := by
  rw [List.reverse_drop]
  by_cases h : k ≤ sh.length
  · rw [show sh.length - (sh.length - k) = k by omega]
  · rw [List.take_of_length_le (by simp; omega), List.take_of_length_le (by simp; omega)]

theorem drop_rev (sh : List ℕ) (k : ℕ) : sh.reverse.drop k = (sh.take (sh.length - k)).reverse := by
  rw [List.reverse_take]
  by_cases h : k ≤ sh.length
  · rw [show sh.length - (sh.length - k) = k by omega]
  · rw [List.drop_of_length_le (by simp; omega), List.drop_of_length_le (by simp; omega)]

theorem omegaSpec_T {sh : List ℕ} {f f' : List ℕ → K} {L R L' R' : Mats K}
    (hf : ∀ i, InR sh i → f' i.reverse = f i)
    (hL : ∀ k p a, k ≤ sh.length → InR (sh.drop (sh.length - k)) p → L' k p.reverse a = R (sh.length - k) p a)
    (hR : ∀ k p a, k ≤ sh.length → InR (sh.take (sh.length - k)) p → R' k p.reverse a = L (sh.length - k) p a)
    {mu : ℕ} (hmu : mu < sh.length - 1) (a b : ℕ) :
    omegaSpec sh.reverse f' L' R' mu a b = omegaSpec sh f L R (sh.length - 2 - mu) b a := by
  unfold omegaSpec
  rw [take_rev, drop_rev, sumIdx_reverse, show sh.length - 2 - mu + 1 = sh.length - (mu + 1) by omega,
    sumIdx_comm (sh.take _)]
  refine sumIdx_congr fun q hq => ?_
  rw [sumIdx_reverse]
  refine sumIdx_congr fun p hp => ?_
  have hpq : InR sh (p ++ q) := by
    have := (inR_append (s := sh.take (sh.length - (mu + 1))) (t := sh.drop (sh.length - (mu + 1))) (p := p) (q := q) hp.length).2 ⟨hp, hq⟩
    rwa [List.take_append_drop] at this
  rw [hL _ _ _ (by omega) hq, hR _ _ _ (by omega) hp, ← List.reverse_append, hf _ hpq]
  ring

theorem psiSpec_T {sh : List ℕ} {f f' : List ℕ → K} {L R L' R' : Mats K}
    (hf : ∀ i, InR sh i → f' i.reverse = f i)
    (hL : ∀ k p a, k ≤ sh.length → InR (sh.drop (sh.length - k)) p → L' k p.reverse a = R (sh.length - k) p a)
    (hR : ∀ k p a, k ≤ sh.length → InR (sh.take (sh.length - k)) p → R' k p.reverse a = L (sh.length - k) p a)
    {mu : ℕ} (hmu : mu < sh.length) (a j b : ℕ) (hj : j < sh.getD (sh.length - 1 - mu) 0) :
    psiSpec sh.reverse f' L' R' mu a j b = psiSpec sh f L R (sh.length - 1 - mu) b j a := by
  unfold psiSpec
  rw [take_rev, drop_rev, sumIdx_reverse, show sh.length - 1 - mu + 1 = sh.length - mu by omega,
    show sh.length - 1 - mu = sh.length - (mu + 1) by omega, sumIdx_comm (sh.take _)]
  refine sumIdx_congr fun q hq => ?_
  rw [sumIdx_reverse]
  refine sumIdx_congr fun p hp => ?_
  have hpq : InR sh (p ++ j :: q) := by
    have hd : sh.drop (sh.length - (mu + 1)) = sh.getD (sh.length - 1 - mu) 0 :: sh.drop (sh.length - mu) := by
      rw [drop_eq_getD_cons (show sh.length - (mu + 1) < sh.length by omega) 0,
        show sh.length - (mu + 1) + 1 = sh.length - mu by omega, show sh.length - (mu + 1) = sh.length - 1 - mu by omega]
    have := (inR_append (s := sh.take (sh.length - (mu + 1))) (t := sh.drop (sh.length - (mu + 1))) (p := p)
      (q := j :: q) hp.length).2 ⟨hp, by rw [hd]; exact ⟨hj, hq⟩⟩
    rwa [List.take_append_drop] at this
  rw [hL _ _ _ (by omega) hq, hR _ _ _ (by omega) hp,
    show q.reverse ++ j :: p.reverse = (p ++ j :: q).reverse by simp, hf _ hpq]
  ring

theorem Container.ext_getD {A B : Container K} {sh lr rr : List ℕ} (hA : A.HasShape sh lr rr) (hB : B.HasShape sh lr rr)
    (hp : ∀ mu < sh.length, A.psi.getD mu (ND.zeros []) = B.psi.getD mu (ND.zeros []))
    (ho : ∀ mu < sh.length - 1, A.omega.getD mu (ND.zeros []) = B.omega.getD mu (ND.zeros [])) : A = B := by
  have h1 : A.psi = B.psi := list_ext_getD (ND.zeros []) (by rw [hA.psiLen, hB.psiLen]) fun k hk => hp k (by rwa [hA.psiLen] at hk)
  have h2 : A.omega = B.omega := list_ext_getD (ND.zeros []) (by rw [hA.omegaLen, hB.omegaLen]) fun k hk =>
    ho k (by rwa [hA.omegaLen] at hk)
  have e1 := hA.shape; have e2 := hA.left; have e3 := hA.right
  have f1 := hB.shape; have f2 := hB.left; have f3 := hB.right
  obtain ⟨a, b, c, d, e⟩ := A
  obtain ⟨a', b', c', d', e'⟩ := B
  simp only at h1 h2 e1 e2 e3 f1 f2 f3
  subst h1 h2 e1 e2 e3 f1 f2 f3
  rfl

/-- The transpose of the sketch of `f` is the sketch of the transposed array with the matrices of the two sides
exchanged. -/
theorem sketchOf_T {sh : List ℕ} {f f' : List ℕ → K} {L R L' R' : Mats K} {lr rr : List ℕ} (hd : 1 ≤ sh.length)
    (hl : lr.length = sh.length - 1) (hr : rr.length = sh.length - 1)
    (hf : ∀ i, InR sh i → f' i.reverse = f i)
    (hL : ∀ k p a, k ≤ sh.length → InR (sh.drop (sh.length - k)) p → L' k p.reverse a = R (sh.length - k) p a)
    (hR : ∀ k p a, k ≤ sh.length → InR (sh.take (sh.length - k)) p → R' k p.reverse a = L (sh.length - k) p a) :
    (sketchOf sh f L R lr rr).T = sketchOf sh.reverse f' L' R' rr.reverse lr.reverse := by
  have h0 := sketchOf_hasShape sh f L R lr rr
  have h1 := sketchOf_hasShape sh.reverse f' L' R' rr.reverse lr.reverse
  have h2 := h0.T hl hr hd
  refine Container.ext_getD h2 h1 (fun mu hmu => ?_) (fun mu hmu => ?_)
  · have hmu' : mu < sh.length := by simpa using hmu
    refine nd3_ext (h2.psi mu hmu) (h1.psi mu hmu) fun a j b ha hj hb => ?_
    have hj' : j < sh.getD (sh.length - 1 - mu) 0 := by rwa [rev_getD _ hmu'] at hj
    rw [sketchOf_psi_get hmu ha hj hb, psiSpec_T hf hL hR hmu' a j b hj', Container.T_psi_getD (by rw [h0.psiLen]; exact hmu'),
      h0.psiLen, ND.transpose210_get (h0.psi _ (by omega)), sketchOf_psi_get (by omega) _ hj' _]
    · rw [← aug_rev_right (by omega), hl] at hb; exact hb
    · rw [← aug_rev_left (by omega), hr] at ha; exact ha
  · have hmu' : mu < sh.length - 1 := by simpa using hmu
    refine nd2_ext (h2.omega mu hmu) (h1.omega mu hmu) fun a b ha hb => ?_
    rw [sketchOf_omega_get hmu ha hb, omegaSpec_T hf hL hR hmu', Container.T_omega_getD (by rw [h0.omegaLen]; exact hmu'),
      h0.omegaLen, show sh.length - 1 - 1 - mu = sh.length - 2 - mu by omega, ND.matT_get (h0.omega _ (by omega)),
      sketchOf_omega_get (by omega)]
    · rw [rev_getD _ (by omega), hl] at hb; rwa [show sh.length - 2 - mu = sh.length - 1 - 1 - mu by omega]
    · rw [rev_getD _ (by omega), hr] at ha; rwa [show sh.length - 2 - mu = sh.length - 1 - 1 - mu by omega]

end
end TTS
