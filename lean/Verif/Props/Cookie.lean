import Verif.Spec.Cookie
import Verif.Proofs.GmresRun

/-!
# C79: maps written by users; the cookie problem
-/

namespace TTS.Props

open Finset Spec TTS

/-! ### one map -/

/-- a map that fits tensors of shape `n :: ns` -/
structure CookieOk (m : CookieMap) (n : ℕ) (ns : List ℕ) : Prop where
  A : m.A.shape = [n, n]
  shape : m.shape = n :: ns
  mode : m.mode ≤ ns.length

/-- the factor at a multi-index -/
noncomputable def CookieMap.coef (m : CookieMap) (k : List ℕ) : ℝ :=
  if m.mode = 0 then 1 else m.coeffs.getD (k.getD m.mode 0) 0

theorem modeMul_zero (G : ℕ → ℕ → ℝ) (n : ℕ) (f : List ℕ → ℝ) (i : ℕ) (k : List ℕ) :
    modeMul G n 0 f (i :: k) = ∑ t ∈ range n, G i t * f (t :: k) := rfl

theorem modeMul_diag (c : ℕ → ℝ) (n mu : ℕ) (f : List ℕ → ℝ) (i : List ℕ) (hi : mu < i.length) (hn : i.getD mu 0 < n) :
    modeMul (fun y t => if t = y then c y else 0) n mu f i = c (i.getD mu 0) * f i := by
  unfold modeMul
  rw [sum_congr rfl (g := fun t => if t = i.getD mu 0 then c (i.getD mu 0) * f i else 0)]
  · rw [sum_ite_eq' (range n), if_pos (mem_range.2 hn)]
  · intro t _
    beta_reduce
    by_cases h : t = i.getD mu 0
    · rw [if_pos h, if_pos h, h, List.getD_eq_getElem _ _ hi, List.set_getElem_self]
    · rw [if_neg h, if_neg h, zero_mul]

theorem cookie_call {m : CookieMap} {n : ℕ} {ns : List ℕ} (hm : CookieOk m n ns) {X : TT ℝ} (hX : X.Valid)
    (hs : X.shape = n :: ns) : ∃ Y, m.call X = .ok Y ∧ Y.Valid ∧ Y.shape = n :: ns ∧ Y.rank = X.rank ∧
      ∀ i k, InR (n :: ns) (i :: k) → Y.toNumpy.get (i :: k)
        = CookieMap.coef m (i :: k) * ∑ j ∈ range n, m.A.get [j, i] * X.toNumpy.get (j :: k) := by
  obtain ⟨C, a, b, h1, h2⟩ := mode_core hX (mu := 0) (n := n) (by rw [hs]; simp) (by rw [hs]; rfl)
  have hd := dim_of_shape3 h2
  have hA1 : m.A.dim 1 = n := by simp [ND.dim, hm.A]
  have hfs : (CookieMap.first m.A C).shape = C.shape := by
    show [C.dim 0, m.A.dim 1, C.dim 2] = _
    rw [h2, hd.1, hA1, hd.2.2]
  obtain ⟨y1, y2, y3, y4⟩ := mode_replaced hX (mu := 0) (n := n) (C' := CookieMap.first m.A C)
    (fun y t => m.A.get [t, y]) h1 hd.2.1 hfs (by
      intro x y z hx hy hz
      unfold CookieMap.first
      rw [ND.ofFn_get (by simp [InR, hx, hy, hz, hA1]), hd.2.1]
      exact sum_congr rfl fun t _ => mul_comm _ _)
  set Y := TT.mk (X.cores.set 0 (CookieMap.first m.A C)) with hY
  have y4' : ∀ i k, InR (n :: ns) (i :: k) →
      Y.toNumpy.get (i :: k) = ∑ j ∈ range n, m.A.get [j, i] * X.toNumpy.get (j :: k) := fun i k h =>
    y4 _ (by rw [hs]; exact h)
  by_cases h0 : m.mode = 0
  · refine ⟨Y, ?_, y1, y2.trans hs, y3, fun i k h => ?_⟩
    · unfold CookieMap.call
      rw [h1]
      simp only [h0, ne_eq, not_true_eq_false, if_false]
      rfl
    · unfold CookieMap.coef
      rw [if_pos h0, one_mul, y4' i k h]
  · have hlen : m.mode < Y.shape.length := by rw [y2, hs, List.length_cons]; have := hm.mode; omega
    obtain ⟨D, a', b', g1, g2⟩ := mode_core y1 hlen rfl
    have gd := dim_of_shape3 g2
    obtain ⟨z1, z2, z3, z4⟩ := mode_replaced y1 (C' := CookieMap.scaled m.coeffs D)
      (fun y t => if t = y then m.coeffs.getD y 0 else 0) g1 gd.2.1 rfl (by
        intro x y z hx hy hz
        unfold CookieMap.scaled
        rw [ND.ofFn_get (by rw [g2]; exact ⟨gd.1 ▸ hx, hy, gd.2.2 ▸ hz, trivial⟩)]
        rw [sum_congr rfl (g := fun t => if t = y then m.coeffs.getD y 0 * D.get [x, y, z] else 0) fun t _ => by
          by_cases h : t = y
          · rw [if_pos h, if_pos h, h]
          · rw [if_neg h, if_neg h, zero_mul]]
        rw [sum_ite_eq' (range _), if_pos (mem_range.2 hy), mul_comm]
        rfl)
    refine ⟨⟨Y.cores.set m.mode (CookieMap.scaled m.coeffs D)⟩, ?_, z1, z2.trans (y2.trans hs), z3.trans y3,
      fun i k h => ?_⟩
    · unfold CookieMap.call
      rw [h1]
      have g1' : (X.cores.set 0 (CookieMap.first m.A C))[m.mode]? = some D := g1
      simp only [ne_eq, h0, not_false_eq_true, if_true, g1']
      rfl
    · have h' : InR Y.shape (i :: k) := by rw [y2, hs]; exact h
      rw [z4 _ h', modeMul_diag _ _ _ _ _ (by rw [h'.length]; exact hlen) ((ND.inR_iff_getD.1 h').2 _ hlen),
        y4' i k h]
      unfold CookieMap.coef
      rw [if_neg h0]

theorem sum_head (n : ℕ) (ns : List ℕ) (g : ℕ → ℝ) (k : List ℕ) (hk : InR ns k) (f : List ℕ → ℝ) :
    (sumIdx (n :: ns) fun j => (if j.tail = k then g (j.getD 0 0) else 0) * f j) = ∑ j ∈ range n, g j * f (j :: k) := by
  rw [sumIdx_cons]
  refine sum_congr rfl fun j _ => ?_
  rw [sumIdx_congr (g := fun js => if js = k then g j * f (j :: js) else 0) fun js _ => by
    show (if js = k then g j else 0) * f (j :: js) = _
    split_ifs <;> simp]
  exact sumIdx_ite_eq hk fun js => g j * f (j :: js)

/-- the matrix of a `CookieMap` -/
noncomputable def cookieKernel (m : CookieMap) (j k : List ℕ) : ℝ :=
  if j.tail = k.tail then CookieMap.coef m k * m.A.get [j.getD 0 0, k.getD 0 0] else 0

theorem cookieKernel_sum {m : CookieMap} {n : ℕ} {ns : List ℕ} {i : ℕ} {k : List ℕ} (h : InR (n :: ns) (i :: k))
    (f : List ℕ → ℝ) : (sumIdx (n :: ns) fun j => cookieKernel m j (i :: k) * f j)
      = CookieMap.coef m (i :: k) * ∑ j ∈ range n, m.A.get [j, i] * f (j :: k) := by
  have := sum_head n ns (fun j => CookieMap.coef m (i :: k) * m.A.get [j, i]) k h.2 f
  refine Eq.trans ?_ (this.trans ?_)
  · rfl
  · rw [mul_sum]
    exact sum_congr rfl fun j _ => by ring

theorem cookie_kernel {m : CookieMap} {n : ℕ} {ns : List ℕ} (hm : CookieOk m n ns) :
    UserMap.Kernel ⟨m.shape, m.shape, m.call⟩ (cookieKernel m) := by
  intro X hX hp hs
  have hs' : X.shape = n :: ns := hs.trans hm.shape
  obtain ⟨Y, y1, y2, y3, y4, y5⟩ := cookie_call hm hX hs'
  refine ⟨Y, y1, y2, y3.trans hm.shape.symm, by rw [y4]; exact hp.2, ?_⟩
  show ∀ k, InR m.shape k → Y.toNumpy.get k = sumIdx m.shape fun j => cookieKernel m j k * X.toNumpy.get j
  rw [hm.shape]
  intro k hk
  cases k with
  | nil => exact absurd hk (by simp [InR])
  | cons i k => rw [y5 i k hk, cookieKernel_sum hk]

theorem cookie_ok (la : LinAlg2) {m : CookieMap} {n : ℕ} {ns : List ℕ} (hm : CookieOk m n ns) : m.linMap.Ok la :=
  ⟨by show m.shape ≠ []; rw [hm.shape]; simp, _, cookie_kernel hm⟩

theorem cookie_maps {m : CookieMap} {n : ℕ} {ns : List ℕ} (hm : CookieOk m n ns) (f g : List ℕ → ℝ) :
    m.linMap.Maps f g ↔ ∀ i k, InR (n :: ns) (i :: k) →
      g (i :: k) = CookieMap.coef m (i :: k) * ∑ j ∈ range n, m.A.get [j, i] * f (j :: k) := by
  show (∃ M, UserMap.Kernel ⟨m.shape, m.shape, m.call⟩ M ∧ ∀ k, InR m.shape k → g k = sumIdx m.shape fun j => M j k * f j) ↔ _
  have hne : m.shape ≠ [] := by rw [hm.shape]; simp
  constructor
  · rintro ⟨M, hM, h⟩ i k hk
    have hk' : InR m.shape (i :: k) := by rw [hm.shape]; exact hk
    rw [h _ hk', sumIdx_congr (g := fun j => cookieKernel m j (i :: k) * f j) fun j hj => by
      rw [kernel_unique hne hM (cookie_kernel hm) hj hk'], hm.shape, cookieKernel_sum hk]
  · intro h
    refine ⟨cookieKernel m, cookie_kernel hm, ?_⟩
    rw [hm.shape]
    intro k hk
    cases k with
    | nil => exact absurd hk (by simp [InR])
    | cons i k => rw [h i k hk, cookieKernel_sum hk]

/-! ### the problem -/

/-- the maps of the problem -/
noncomputable def cookieMaps (D : CookieData) (m : ℕ) (shape : List ℕ) : List CookieMap :=
  (D.A.zip (D.A.zipIdx.map fun p => cookieCoeffs m p.2 p.1)).zipIdx.map fun p => ⟨p.1.1, p.2, shape, p.1.2⟩

theorem cookieMaps_eq (D : CookieData) (m : ℕ) (shape : List ℕ) :
    cookieMaps D m shape = D.A.zipIdx.map fun p => ⟨p.1, p.2, shape, cookieCoeffs m p.2 p.1⟩ := by
  unfold cookieMaps
  refine List.ext_getElem (by simp) fun k h1 h2 => ?_
  simp

theorem linspace_getD {m q : ℕ} (h : q < m) : (linspace 0 10 m).getD q 0 = 10 * (q : ℝ) / ((m : ℝ) - 1) := by
  unfold linspace
  rw [List.getD_eq_getElem _ _ (by simpa using h), List.getElem_map, List.getElem_range]
  ring

theorem zipIdx_sum (g : ℝ → ND ℝ → ℝ) (m : ℕ) : ∀ (As : List (ND ℝ)) (k : List ℕ) (o : ℕ) (hk : As.length = k.length) (h : ℕ → ℝ),
    (∀ q (hq : q < k.length), h (o + q) = 10 * (k[q] : ℝ) / ((m : ℝ) - 1)) →
    ((As.zipIdx o).map fun p => g (h p.2) p.1).sum
      = (List.zipWith (fun A t => g t A) As (gridParams m k)).sum
  | [], [], _, _, _, _ => rfl
  | A :: As, q :: k, o, hk, h, hh => by
    have ih := zipIdx_sum g m As k (o + 1) (by simpa using hk) h fun r hr => by
      have := hh (r + 1) (by simpa using hr)
      rw [← add_assoc, add_right_comm] at this
      simpa using this
    have h0 := hh 0 (by simp)
    rw [add_zero] at h0
    rw [List.zipIdx_cons, List.map_cons, List.sum_cons, ih, h0]
    rfl
  | [], _ :: _, _, hk, _, _ => by simp at hk
  | _ :: _, [], _, hk, _, _ => by simp at hk

/-- what the maps of the problem sum up to -/
theorem cookie_sum {A0 : ND ℝ} {As : List (ND ℝ)} {n m : ℕ} {D : CookieData} (hD : D.Ok n A0 As) (f : List ℕ → ℝ) {i : ℕ}
    {k : List ℕ} (hk : InR (n :: List.replicate As.length m) (i :: k)) :
    ((cookieMaps D m (n :: List.replicate As.length m)).map fun c =>
      CookieMap.coef c (i :: k) * ∑ j ∈ range n, c.A.get [j, i] * f (j :: k)).sum
      = ∑ j ∈ range n, paramMatrix A0 As (gridParams m k) j i * f (j :: k) := by
  have hl : k.length = As.length := by simpa using hk.2.length
  rw [cookieMaps_eq, hD.A, List.map_map]
  have e : ((fun c : CookieMap => CookieMap.coef c (i :: k) * ∑ j ∈ range n, c.A.get [j, i] * f (j :: k)) ∘
      fun p : ND ℝ × ℕ => (⟨p.1, p.2, n :: List.replicate As.length m, cookieCoeffs m p.2 p.1⟩ : CookieMap))
      = fun p => (fun (t : ℝ) (A : ND ℝ) => t * ∑ j ∈ range n, A.get [j, i] * f (j :: k))
          ((fun mu : ℕ => if mu = 0 then 1 else (linspace 0 10 m).getD ((i :: k).getD mu 0) 0) p.2) p.1 := by
    funext p
    show (if p.2 = 0 then (1 : ℝ) else (cookieCoeffs m p.2 p.1).getD _ 0) * _ = _
    congr 1
    by_cases h : p.2 = 0
    · rw [if_pos h]; simp only [h, if_true]
    · rw [if_neg h]; simp only [h, if_false]
      rw [cookieCoeffs, if_neg h]
  rw [e, List.zipIdx_cons, List.map_cons, List.sum_cons]
  have hz := zipIdx_sum (fun (t : ℝ) (A : ND ℝ) => t * ∑ j ∈ range n, A.get [j, i] * f (j :: k)) m As k 1 hl.symm
    (fun mu : ℕ => if mu = 0 then 1 else (linspace 0 10 m).getD ((i :: k).getD mu 0) 0) (by
      intro q hq
      beta_reduce
      rw [if_neg (by omega), add_comm 1 q, List.getD_cons_succ]
      have := (ND.inR_iff_getD.1 hk.2).2 q (by simpa [hl] using hq)
      rw [List.getD_replicate _ (by simpa [hl] using hq)] at this
      rw [linspace_getD this, List.getD_eq_getElem _ _ hq])
  rw [zero_add, hz]
  beta_reduce
  rw [if_pos rfl, one_mul]
  unfold paramMatrix
  generalize gridParams m k = θ
  clear hz e hl hk hD
  simp only [add_mul, sum_add_distrib]
  congr 1
  induction As generalizing θ with
  | nil => simp
  | cons A As ih =>
    cases θ with
    | nil => simp
    | cons t θ =>
      simp only [List.zipWith_cons_cons, List.sum_cons, add_mul, sum_add_distrib]
      rw [ih θ, mul_sum]
      congr 1
      exact sum_congr rfl fun j _ => by ring

theorem cookie_each {A0 : ND ℝ} {As : List (ND ℝ)} {n m : ℕ} {D : CookieData} (hD : D.Ok n A0 As) :
    ∀ c ∈ cookieMaps D m (n :: List.replicate As.length m), CookieOk c n (List.replicate As.length m) := by
  intro c hc
  rw [cookieMaps_eq] at hc
  obtain ⟨p, hp, rfl⟩ := List.mem_map.1 hc
  have hp' := List.mem_zipIdx hp
  refine ⟨hD.shape _ ?_, rfl, ?_⟩
  · show p.1 ∈ _
    rw [hp'.2.2, ← hD.A]
    exact List.getElem_mem _
  · show p.2 ≤ _
    have : p.2 < 0 + D.A.length := hp'.2.1
    rw [hD.A] at this
    simp only [List.length_cons] at this
    rw [List.length_replicate]
    omega

theorem mean_linspace {m : ℕ} (hm : 0 < m) : mean (linspace 0 10 m) = if m = 1 then 0 else 5 := by
  have e : ∀ (c : ℝ) (r : ℕ), ((List.range r).map fun k : ℕ => (0 : ℝ) + (k : ℝ) * c).sum = (r : ℝ) * ((r : ℝ) - 1) / 2 * c := by
    intro c r
    induction r with
    | zero => simp
    | succ r ih =>
      rw [List.range_succ, List.map_append, List.sum_append, ih]
      simp only [List.map_cons, List.map_nil, List.sum_cons, List.sum_nil]
      push_cast
      ring
  unfold mean linspace
  rw [e, List.length_map, List.length_range]
  by_cases h : m = 1
  · subst h; simp
  · rw [if_neg h]
    have h1 : (m : ℝ) ≠ 0 := by exact_mod_cast hm.ne'
    have h2 : (m : ℝ) - 1 ≠ 0 := by
      intro h'
      apply h
      have : (m : ℝ) = 1 := by linarith
      exact_mod_cast this
    field_simp
    ring

theorem foldl_add_get (i : List ℕ) : ∀ (As : List (ND ℝ)) (A : ND ℝ), (∀ B ∈ As, B.shape = A.shape) →
    (As.foldl ND.add A).shape = A.shape ∧ (As.foldl ND.add A).get i = A.get i + (As.map fun B => B.get i).sum
  | [], A, _ => by simp
  | B :: As, A, h => by
    have ih := foldl_add_get i As (A.add B) fun C hC => h C (List.mem_cons_of_mem _ hC)
    rw [List.foldl_cons]
    refine ⟨ih.1, ?_⟩
    rw [ih.2, ND.add_get A B (h B List.mem_cons_self).symm, List.map_cons, List.sum_cons, add_assoc]

/-- the matrix of the preconditioner -/
theorem cookie_prec {A0 : ND ℝ} {As : List (ND ℝ)} {n m : ℕ} {D : CookieData} (hD : D.Ok n A0 As) (hm : 0 < m) :
    ∃ Ap, sumArrays ((D.A.zip (D.A.zipIdx.map fun p => cookieCoeffs m p.2 p.1)).map fun p => p.1.smul (mean p.2)) = .ok Ap ∧
      Ap.shape = [n, n] ∧
      ∀ i j, Ap.get [i, j] = paramMatrix A0 As (List.replicate As.length (if m = 1 then 0 else 5)) i j := by
  have e : (D.A.zip (D.A.zipIdx.map fun p => cookieCoeffs m p.2 p.1)).map (fun p => p.1.smul (mean p.2))
      = A0.smul 1 :: As.map fun B => B.smul (if m = 1 then 0 else 5) := by
    rw [hD.A]
    refine List.ext_getElem (by simp) fun k h1 h2 => ?_
    cases k with
    | zero =>
      have h0 : A0.dim 0 = n := by simp [ND.dim, hD.shape A0 (by simp)]
      have hn : (n : ℝ) ≠ 0 := by exact_mod_cast hD.pos.ne'
      have : mean (List.replicate n 1) = 1 := by unfold mean; simp [hn]
      simp [cookieCoeffs, h0, this]
    | succ k => simp [cookieCoeffs, mean_linspace hm]
  rw [e]
  have hsh : ∀ B ∈ As.map (fun B => B.smul (if m = 1 then 0 else 5)), B.shape = (A0.smul 1).shape := by
    intro B hB
    obtain ⟨C, hC, rfl⟩ := List.mem_map.1 hB
    rw [ND.smul_shape, ND.smul_shape, hD.shape C (by simp [hC]), hD.shape A0 (by simp)]
  refine ⟨_, by unfold sumArrays; exact if_pos hsh, ?_, fun i j => ?_⟩
  · rw [(foldl_add_get [] _ _ hsh).1, ND.smul_shape, hD.shape A0 (by simp)]
  · rw [(foldl_add_get [i, j] _ _ hsh).2, ND.smul_get, mul_one, List.map_map]
    unfold paramMatrix
    congr 2
    refine List.ext_getElem (by simp) fun k h1 h2 => ?_
    simp [ND.smul_get, mul_comm]

/-- the right hand side -/
theorem cookie_rhs (b : List ℝ) : ∀ (ns : List ℕ),
    TTChain 1 (ns.map fun n => ND.ofFn [1, n, 1] fun _ => (1 : ℝ)) 1 ∧
    (∀ C ∈ ns.map fun n => ND.ofFn [1, n, 1] fun _ => (1 : ℝ), C.dim 0 = 1) ∧
    (ns.map fun n => ND.ofFn [1, n, 1] fun _ => (1 : ℝ)).map (fun C => C.dim 1) = ns ∧
    ∀ k, InR ns k → ttVal (ns.map fun n => ND.ofFn [1, n, 1] fun _ => (1 : ℝ)) k 0 0 = 1
  | [] => ⟨rfl, by simp, rfl, fun k hk => by
      cases k with
      | nil => rfl
      | cons _ _ => exact absurd hk (by simp [InR])⟩
  | n :: ns => by
    obtain ⟨c1, c2, c3, c4⟩ := cookie_rhs b ns
    refine ⟨⟨n, 1, rfl, c1⟩, ?_, ?_, ?_⟩
    · intro C hC
      rcases List.mem_cons.1 hC with rfl | hC
      · rfl
      · exact c2 C hC
    · rw [List.map_cons, List.map_cons, c3]
      rfl
    · intro k hk
      cases k with
      | nil => exact absurd hk (by simp [InR])
      | cons a k =>
        show ∑ u ∈ range 1, (ND.ofFn [1, n, 1] fun _ => (1 : ℝ)).get [0, a, u] * ttVal _ k u 0 = _
        rw [sum_range_one, ND.ofFn_get (by simp [InR, hk.1]), c4 k hk.2, one_mul]

/-- the tensor `b ⊗ 1 ⊗ … ⊗ 1` -/
noncomputable def rhsTT (b : List ℝ) (ns : List ℕ) : TT ℝ :=
  ⟨ND.ofFn [1, b.length, 1] (fun i => b.getD (i.getD 1 0) 0) :: ns.map fun n => ND.ofFn [1, n, 1] fun _ => 1⟩

theorem rhsTT_ok (b : List ℝ) (ns : List ℕ) : (rhsTT b ns).Valid ∧ (rhsTT b ns).shape = b.length :: ns ∧
    (∀ r ∈ (rhsTT b ns).rank, 0 < r) ∧
    ∀ i k, InR (b.length :: ns) (i :: k) → (rhsTT b ns).toNumpy.get (i :: k) = b.getD i 0 := by
  obtain ⟨c1, c2, c3, c4⟩ := cookie_rhs b ns
  have hv : (rhsTT b ns).Valid := ⟨by simp [rhsTT], b.length, 1, rfl, c1⟩
  refine ⟨hv, ?_, ?_, fun i k h => ?_⟩
  · show _ :: List.map _ _ = _
    rw [c3]; rfl
  · intro r hr
    obtain ⟨C, hC, rfl⟩ := List.mem_map.1 hr
    rw [c2 C hC]
    exact one_pos
  · rw [TT.toNumpy_get hv]
    show ∑ u ∈ range 1, (ND.ofFn [1, b.length, 1] fun i => b.getD (i.getD 1 0) 0).get [0, i, u] * ttVal _ k u 0 = _
    rw [sum_range_one, ND.ofFn_get (by simp [InR, h.1]), c4 k h.2, mul_one]
    rfl

theorem prepare_ok (la : LinAlg2) {load : String → CookieData} {m c : ℕ} (hc : c = 4 ∨ c = 9) (hm : 0 < m) {n : ℕ} {A0 : ND ℝ}
    {As : List (ND ℝ)}
    (hD : (load (if c = 4 then "data/cookies_matrices_2x2.mat" else "data/cookies_matrices_3x3.mat")).Ok n A0 As) :
    ∃ Ap, prepareCookie la load m c = .ok
      ⟨⟨n :: List.replicate As.length m, n :: List.replicate As.length m,
        (cookieMaps (load (if c = 4 then "data/cookies_matrices_2x2.mat" else "data/cookies_matrices_3x3.mat")) m
          (n :: List.replicate As.length m)).map CookieMap.linMap⟩,
        rhsTT (load (if c = 4 then "data/cookies_matrices_2x2.mat" else "data/cookies_matrices_3x3.mat")).b
          (List.replicate As.length m),
        Precond.new la Ap (n :: List.replicate As.length m) 0⟩ ∧ Ap.shape = [n, n] ∧
      ∀ i j, Ap.get [i, j] = paramMatrix A0 As (List.replicate As.length (if m = 1 then 0 else 5)) i j := by
  unfold prepareCookie
  rw [if_neg (by omega)]
  generalize load (if c = 4 then "data/cookies_matrices_2x2.mat" else "data/cookies_matrices_3x3.mat") = D at hD ⊢
  obtain ⟨Ap, p1, p2, p3⟩ := cookie_prec (m := m) hD hm
  refine ⟨Ap, ?_, p2, p3⟩
  have hA := hD.A
  have h0 : A0.dim 0 = n := by simp [ND.dim, hD.shape A0 (by simp)]
  have hl : D.A.length - 1 = As.length := by rw [hA]; simp
  have hnew := (C54_new ((cookieMaps D m (n :: List.replicate As.length m)).map CookieMap.linMap)).1
    (n :: List.replicate As.length m) (n :: List.replicate As.length m) (by
      rw [cookieMaps_eq, hA]; simp) (by
      intro l hl
      obtain ⟨c, hc, rfl⟩ := List.mem_map.1 hl
      have := (cookie_each hD c hc).shape
      exact ⟨this, this⟩)
  have hmaps : ((D.A.zip (D.A.zipIdx.map fun p => cookieCoeffs m p.2 p.1)).zipIdx).map (fun p =>
      CookieMap.linMap ⟨p.1.1, p.2, n :: List.replicate As.length m, p.1.2⟩)
      = (cookieMaps D m (n :: List.replicate As.length m)).map CookieMap.linMap := by
    unfold cookieMaps
    rw [List.map_map]
    rfl
  dsimp only
  split
  · rename_i h; rw [hA] at h; cases h
  · rename_i B Bs h
    have hB : B = A0 := by rw [hA] at h; cases h; rfl
    subst hB
    rw [p1, h0, hl, hmaps, hnew]
    rfl

/-- **C79, the map.** The map of the cookie problem takes, for every combination of grid indices, the slice of the
argument to `A(θ)ᵀ` times the slice, where `A(θ) = A₀ + θ₁ A₁ + …` at the parameters of the grid point; the right hand
side is `b` for every grid point; the preconditioner is made from the matrix at the mean of the parameters. -/
theorem C79 (la : LinAlg2) (hq : la.QROk) (ht : la.SolveTriOk) (load : String → CookieData) (m c : ℕ) (hc : c = 4 ∨ c = 9)
    (hm : 0 < m) (n : ℕ) (A0 : ND ℝ) (As : List (ND ℝ)) (D : CookieData)
    (hf : load (if c = 4 then "data/cookies_matrices_2x2.mat" else "data/cookies_matrices_3x3.mat") = D)
    (hD : D.Ok n A0 As) :
    ∃ p Ap, prepareCookie la load m c = .ok p ∧
      p.map.inShape = n :: List.replicate As.length m ∧ p.map.outShape = n :: List.replicate As.length m ∧
      (p.B.Valid ∧ p.B.shape = n :: List.replicate As.length m ∧ ∀ i k, InR (n :: List.replicate As.length m) (i :: k) →
        p.B.toNumpy.get (i :: k) = D.b.getD i 0) ∧
      (p.precond = Precond.new la Ap (n :: List.replicate As.length m) 0 ∧ Ap.shape = [n, n] ∧
        ∀ i j, Ap.get [i, j] = paramMatrix A0 As (List.replicate As.length (if m = 1 then 0 else 5)) i j) ∧
      ∀ X : TT ℝ, X.Valid → X.Pos → X.shape = n :: List.replicate As.length m →
        ∃ ys, p.map.call la [X] = .ok ys ∧ ys.length = As.length + 1 ∧ (∀ y ∈ ys, y.Valid ∧ y.shape = X.shape) ∧
          ∀ i k, InR (n :: List.replicate As.length m) (i :: k) →
            (TSum.mk p.map.outShape (ys.map Leaf.tt)).toNumpy.get (i :: k)
              = ∑ j ∈ range n, paramMatrix A0 As (gridParams m k) j i * X.toNumpy.get (j :: k) := by
  subst hf
  obtain ⟨Ap, p1, p2, p3⟩ := prepare_ok la hc hm hD
  refine ⟨_, Ap, p1, rfl, rfl, ?_, ⟨rfl, p2, p3⟩, ?_⟩
  · obtain ⟨r1, r2, _, r4⟩ := rhsTT_ok
      (load (if c = 4 then "data/cookies_matrices_2x2.mat" else "data/cookies_matrices_3x3.mat")).b (List.replicate As.length m)
    rw [hD.b] at r2 r4
    exact ⟨r1, r2, r4⟩
  generalize load (if c = 4 then "data/cookies_matrices_2x2.mat" else "data/cookies_matrices_3x3.mat") = D at hD ⊢
  intro X hX hp hs
  have hnew := (C54_new ((cookieMaps D m (n :: List.replicate As.length m)).map CookieMap.linMap)).1
    (n :: List.replicate As.length m) (n :: List.replicate As.length m) (by
      rw [cookieMaps_eq, hD.A]; simp) (by
      intro l hl
      obtain ⟨c, hc, rfl⟩ := List.mem_map.1 hl
      have := (cookie_each hD c hc).shape
      exact ⟨this, this⟩)
  obtain ⟨Y, ys, y1, y2, y3, y4, y5⟩ := C54 la hq ht _ _ hnew (by
    intro l hl
    obtain ⟨c, hc, rfl⟩ := List.mem_map.1 hl
    exact cookie_ok la (cookie_each hD c hc)) [X] (by simp) (by
    intro x hx
    rw [List.mem_singleton] at hx
    subst hx
    exact ⟨hX, hp, hs⟩)
  refine ⟨ys, y2, ?_, fun y hy => ⟨(y4 y hy).1, (y4 y hy).2.trans hs.symm⟩, fun i k hk => ?_⟩
  · rw [y3, cookieMaps_eq, hD.A]; simp
  · rw [y5, ← cookie_sum hD _ hk, List.map_map]
    congr 1
    refine List.map_congr_left fun c hc => ?_
    have := (cookie_maps (cookie_each hD c hc) _ _).1 (y1 c.linMap (List.mem_map_of_mem hc) X (by simp)).2.2 i k hk
    simpa using this

/-- **C79, errors.** Only 4 and 9 cookies are supported. -/
theorem C79_errors (la : LinAlg2) (load : String → CookieData) (m c : ℕ) (hc : c ≠ 4 ∧ c ≠ 9) :
    prepareCookie la load m c = .error .valueError := by
  unfold prepareCookie
  rw [if_pos hc]

/-- **C79, the system.** With a regular matrix at the mean parameters, the arguments made by `prepare_cookie_problem` are
good ones for the solver (so that everything proved about it applies), and an array solves the system that is handed to
the solver exactly if for every grid point its slice solves `A(θ)ᵀ x = b`. -/
theorem C79_solves (la : LinAlg2) (load : String → CookieData) (m c : ℕ) (hc : c = 4 ∨ c = 9) (hm : 0 < m) (n : ℕ)
    (A0 : ND ℝ) (As : List (ND ℝ)) (D : CookieData)
    (hf : load (if c = 4 then "data/cookies_matrices_2x2.mat" else "data/cookies_matrices_3x3.mat") = D)
    (hD : D.Ok n A0 As)
    (hdet : (Matrix.of fun i j : Fin n =>
      paramMatrix A0 As (List.replicate As.length (if m = 1 then 0 else 5)) i j).det ≠ 0)
    (p : CookieProblem) (hp : prepareCookie la load m c = .ok p) (a : GmresArgs) (hA : a.A = p.map) (hB : a.b = p.B)
    (hP : a.precond = some p.precond) :
    (As ≠ [] → (∀ x, a.x0 = some x → x.Valid ∧ x.Pos ∧ x.shape = n :: List.replicate As.length m) →
      RankOk (n :: List.replicate As.length m) a.maxRank → RankOk (n :: List.replicate As.length m) a.lastRank →
      (a.method = .exact ∨ a.method = .pairwise ∨ a.method = .sketch ∨ a.method = .orthSketch) →
      (a.lastMethod = .exact ∨ a.lastMethod = .pairwise ∨ a.lastMethod = .sketch ∨ a.lastMethod = .orthSketch) →
      a.Ok la) ∧
    ∀ f, a.Solves f ↔ ∀ i k, InR (n :: List.replicate As.length m) (i :: k) →
      ∑ j ∈ range n, paramMatrix A0 As (gridParams m k) j i * f (j :: k) = D.b.getD i 0 := by
  subst hf
  obtain ⟨Ap, p1, p2, p3⟩ := prepare_ok la hc hm hD
  rw [p1] at hp
  injection hp with hp
  subst hp
  obtain ⟨r1, r2, r3, r4⟩ := rhsTT_ok
      (load (if c = 4 then "data/cookies_matrices_2x2.mat" else "data/cookies_matrices_3x3.mat")).b (List.replicate As.length m)
  rw [hD.b] at r2 r4
  generalize load (if c = 4 then "data/cookies_matrices_2x2.mat" else "data/cookies_matrices_3x3.mat") = D at *
  have hdet' : (Ap.asMatrix n n).det ≠ 0 := by
    have : Ap.asMatrix n n = Matrix.of fun i j : Fin n =>
        paramMatrix A0 As (List.replicate As.length (if m = 1 then 0 else 5)) i j := by
      ext i j
      exact p3 i j
    rw [this]
    exact hdet
  have hPok : (LinMap.precond (Precond.new la Ap (n :: List.replicate As.length m) 0)).Ok la :=
    ⟨Ap, n, rfl, p2, hdet', by show 0 < _; simp [Precond.new], rfl⟩
  have hmaps : ∀ l ∈ (cookieMaps D m (n :: List.replicate As.length m)).map CookieMap.linMap, l.Ok la := by
    intro l hl
    obtain ⟨c, hc, rfl⟩ := List.mem_map.1 hl
    exact cookie_ok la (cookie_each hD c hc)
  have hsh : ∀ l ∈ (cookieMaps D m (n :: List.replicate As.length m)).map CookieMap.linMap,
      l.inShape = n :: List.replicate As.length m ∧ l.outShape = n :: List.replicate As.length m := by
    intro l hl
    obtain ⟨c, hc, rfl⟩ := List.mem_map.1 hl
    have := (cookie_each hD c hc).shape
    exact ⟨this, this⟩
  have hB : a.b = rhsTT D.b (List.replicate As.length m) := hB
  have hbs : a.b.shape = n :: List.replicate As.length m := by rw [hB]; exact r2
  refine ⟨fun hAs hx hr1 hr2 hme1 hme2 => ?_, fun f => ?_⟩
  · have hpos : (rhsTT D.b (List.replicate As.length m)).Pos := by
      refine ⟨?_, r3⟩
      rw [r2]
      intro q hq
      rcases List.mem_cons.1 hq with rfl | hq
      · exact hD.pos
      · rw [List.eq_of_mem_replicate hq]; exact hm
    refine ⟨?_, by rw [hA]; exact hmaps, ?_, by rw [hA, hbs], by rw [hA, hbs], by rw [hB]; exact ⟨r1, hpos⟩, ?_,
      by rw [hbs]; exact hx, ?_, by rw [hbs]; exact hr1, by rw [hbs]; exact hr2, hme1, hme2⟩
    · rw [hA]
      exact (C54_new _).1 _ _ (by rw [cookieMaps_eq, hD.A]; simp) hsh
    · intro B hB'
      rw [hA] at hB'
      obtain ⟨c, _, h⟩ := List.mem_map.1 hB'
      cases h
    · rw [hbs]
      have := List.length_pos_of_ne_nil hAs
      simp; omega
    · intro P hP'
      rw [hP] at hP'
      injection hP' with hP'
      subst hP'
      rw [hbs]
      exact ⟨hPok, rfl⟩
  · unfold GmresArgs.Solves GmresArgs.Image
    rw [hP, hA, hbs]
    have hsum : ∀ u : List ℕ → ℝ, MapsSum ((cookieMaps D m (n :: List.replicate As.length m)).map CookieMap.linMap)
        (n :: List.replicate As.length m) f u ↔ ∀ i k, InR (n :: List.replicate As.length m) (i :: k) →
        u (i :: k) = ∑ j ∈ range n, paramMatrix A0 As (gridParams m k) j i * f (j :: k) := by
      intro u
      constructor
      · rintro ⟨G, g1, g2⟩ i k hk
        rw [g2 _ hk, ← cookie_sum hD f hk, List.map_map]
        congr 1
        refine List.map_congr_left fun c hc => ?_
        exact (cookie_maps (cookie_each hD c hc) _ _).1 (g1 c.linMap (List.mem_map_of_mem hc)) i k hk
      · intro h
        obtain ⟨L, l1, _⟩ := mapsSum_op hmaps hsh
        obtain ⟨v, hv⟩ : ∃ v, MapsSum ((cookieMaps D m (n :: List.replicate As.length m)).map CookieMap.linMap)
            (n :: List.replicate As.length m) f v :=
          ⟨ext _ (L (vec _ f)), (l1 _ _).2 (vec_ext _ _)⟩
        have hv' := hv
        obtain ⟨G, g1, g2⟩ := hv
        refine ⟨G, g1, fun k hk => ?_⟩
        rw [← g2 k hk]
        cases k with
        | nil => exact absurd hk (by simp [InR])
        | cons i k =>
          rw [h i k hk, g2 _ hk, ← cookie_sum hD f hk, List.map_map]
          congr 1
          refine List.map_congr_left fun c hc => ?_
          exact ((cookie_maps (cookie_each hD c hc) _ _).1 (g1 c.linMap (List.mem_map_of_mem hc)) i k hk).symm
    constructor
    · rintro ⟨bp, h1, u, h2, h3⟩ i k hk
      rw [← (hsum u).1 h2 i k hk, ← r4 i k hk, ← hB]
      exact (h3 _ hk).trans (h1 _ hk).symm
    · intro h
      obtain ⟨L, hL⟩ := precMaps_op (la := la) (s := n :: List.replicate As.length m)
        (P := some (Precond.new la Ap (n :: List.replicate As.length m) 0)) (by
          intro P hP'
          injection hP' with hP'
          subst hP'
          exact ⟨hPok, rfl⟩)
      have hbp := (hL a.b.toNumpy.get (ext _ (L (vec _ a.b.toNumpy.get)))).2 (vec_ext _ _)
      refine ⟨_, hbp, a.b.toNumpy.get, (hsum _).2 fun i k hk => ?_, hbp⟩
      rw [h i k hk, ← r4 i k hk, hB]

/-- a small problem: `A₀ = [[2, 1], [1, 3]]`, `A₁ = diag(1, 0)`, `A₂ = diag(0, 1)` -/
noncomputable def data79 : CookieData where
  b := [1, 2]
  A := [ND.ofFn [2, 2] fun i => if i = [0, 0] then 2 else if i = [1, 1] then 3 else 1,
    ND.ofFn [2, 2] fun i => if i = [0, 0] then 1 else 0, ND.ofFn [2, 2] fun i => if i = [1, 1] then 1 else 0]

example : data79.Ok 2 (data79.A.head (by simp [data79])) data79.A.tail ∧ (Matrix.of fun i j : Fin 2 =>
    paramMatrix (data79.A.head (by simp [data79])) data79.A.tail (List.replicate 2 (if (3 : ℕ) = 1 then 0 else 5)) i j).det ≠ 0 := by
  refine ⟨⟨rfl, ?_, rfl, by norm_num⟩, ?_⟩
  · intro B hB
    simp only [data79, List.head_cons, List.tail_cons, List.mem_cons, List.not_mem_nil, or_false] at hB
    rcases hB with rfl | rfl | rfl <;> rfl
  · rw [Matrix.det_fin_two]
    simp only [Matrix.of_apply, paramMatrix, data79, List.head_cons, List.tail_cons, List.replicate,
      List.zipWith_cons_cons, List.zipWith_nil_left, List.sum_cons, List.sum_nil, Fin.val_zero, Fin.val_one]
    rw [ND.ofFn_get (by simp [InR]), ND.ofFn_get (by simp [InR]), ND.ofFn_get (by simp [InR]), ND.ofFn_get (by simp [InR]),
      ND.ofFn_get (by simp [InR]), ND.ofFn_get (by simp [InR]), ND.ofFn_get (by simp [InR]), ND.ofFn_get (by simp [InR]),
      ND.ofFn_get (by simp [InR]), ND.ofFn_get (by simp [InR]), ND.ofFn_get (by simp [InR]), ND.ofFn_get (by simp [InR])]
    norm_num

end TTS.Props
