import Verif.Proofs.RankSpan

/-! Reassembling a tensor train from a sketch. -/

namespace TTS

open Finset

variable {K : Type*} [CommRing K]

/-- Backward assembly of a tensor train. -/
theorem ttVal_drop {cores : List (ND K)} {r n : ℕ → ℕ} (h : Cores cores r n) (sh : List ℕ)
    (hlen : cores.length = sh.length) (hlast : r sh.length = 1)
    (G : ℕ → ℕ → List ℕ → K) (hd : 1 ≤ sh.length)
    (hbase : ∀ a < r (sh.length - 1), ∀ j < sh.getD (sh.length - 1) 0,
      (cores.getD (sh.length - 1) (ND.zeros [])).get [a, j, 0] = G (sh.length - 1) a [j])
    (hstep : ∀ mu < sh.length - 1, ∀ a < r mu, ∀ j < sh.getD mu 0, ∀ q, InR (sh.drop (mu + 1)) q →
      ∑ c ∈ range (r (mu + 1)), (cores.getD mu (ND.zeros [])).get [a, j, c] * G (mu + 1) c q = G mu a (j :: q)) :
    ∀ k < sh.length, ∀ a < r (sh.length - 1 - k), ∀ q, InR (sh.drop (sh.length - 1 - k)) q →
      ttVal (cores.drop (sh.length - 1 - k)) q a 0 = G (sh.length - 1 - k) a q := by
  intro k
  induction k with
  | zero =>
    intro hk a ha q hq
    have hl : sh.length - 1 < sh.length := by omega
    rw [Nat.sub_zero, drop_eq_getD_cons hl 0] at hq
    rw [Nat.sub_zero, drop_eq_getD_cons (hlen ▸ hl) (ND.zeros []), List.drop_eq_nil_of_le (by omega)]
    rw [List.drop_eq_nil_of_le (by omega)] at hq
    match q, hq with
    | [j], ⟨hj, _⟩ =>
      have hs := h (sh.length - 1) (by omega)
      rw [Nat.sub_add_cancel hd, hlast] at hs
      rw [ttVal_cons hs]
      simp only [range_one, sum_singleton, ttVal_nil_nil, if_true, mul_one]
      exact hbase a ha j hj
    | _ :: _ :: _, ⟨_, hq⟩ => exact absurd hq (by simp)
  | succ k ih =>
    intro hk a ha q hq
    obtain ⟨m, hm⟩ : ∃ m, sh.length - 1 - (k + 1) = m := ⟨_, rfl⟩
    have hm1 : sh.length - 1 - k = m + 1 := by omega
    rw [hm] at ha hq ⊢
    rw [hm1] at ih
    have hml : m < sh.length := by omega
    rw [drop_eq_getD_cons hml 0] at hq
    rw [drop_eq_getD_cons (hlen ▸ hml) (ND.zeros [])]
    match q, hq with
    | j :: q, ⟨hj, hq⟩ =>
      rw [ttVal_cons (h m (by omega)), ← hstep m (by omega) a ha j hj q hq]
      exact sum_congr rfl fun c hc => by rw [ih (by omega) c (by simpa using hc) q hq]

/-- Forward assembly of a tensor train. -/
theorem ttVal_take {cores : List (ND K)} {r n : ℕ → ℕ} (h : Cores cores r n) (sh : List ℕ)
    (hlen : cores.length = sh.length) (h0 : r 0 = 1)
    (G : ℕ → List ℕ → ℕ → K) (hd : 1 ≤ sh.length)
    (hbase : ∀ j < sh.getD 0 0, ∀ b < r 1, (cores.getD 0 (ND.zeros [])).get [0, j, b] = G 1 [j] b)
    (hstep : ∀ mu, mu + 1 < sh.length → ∀ p, InR (sh.take (mu + 1)) p → ∀ j < sh.getD (mu + 1) 0, ∀ b < r (mu + 2),
      ∑ c ∈ range (r (mu + 1)), G (mu + 1) p c * (cores.getD (mu + 1) (ND.zeros [])).get [c, j, b]
        = G (mu + 2) (p ++ [j]) b) :
    ∀ k < sh.length, ∀ p, InR (sh.take (k + 1)) p → ∀ b < r (k + 1),
      ttVal (cores.take (k + 1)) p 0 b = G (k + 1) p b := by
  intro k
  induction k with
  | zero =>
    intro hk p hp b hb
    rw [take_two_getD hd 0] at hp
    match p, hp with
    | [j], ⟨hj, _⟩ =>
      rw [zero_add, h.val_one h0 (by omega)]
      exact hbase j hj b hb
    | _ :: _ :: _, ⟨_, hq⟩ => exact absurd hq (by simp)
  | succ k ih =>
    intro hk p hp b hb
    rw [take_succ_getD hk 0] at hp
    have hl : p.length = k + 2 := by
      have := hp.length; simp at this; omega
    obtain ⟨p', j, rfl⟩ : ∃ p' j, p = p' ++ [j] := ⟨p.dropLast, p.getLast (by intro h; simp [h] at hl), (List.dropLast_append_getLast _).symm⟩
    have hl' : p'.length = k + 1 := by simpa using hl
    rw [inR_append (by rw [hl', List.length_take]; omega)] at hp
    rw [h.val_succ h0 (k + 1) (by omega) p' hl' j b, ← hstep k (by omega) p' hp.1 j hp.2.1 b hb]
    refine sum_congr rfl fun c hc => ?_
    rw [ih (by omega) p' hp.1 c (by simpa using hc)]

/-! ### one reassembled core -/

theorem reshape?_ok {A : ND K} {s t : List ℕ} (h : A.shape = s) (hp : s.prod = t.prod) :
    A.reshape? t = .ok (A.reshape t) := by
  unfold ND.reshape?
  rw [h, if_pos hp]

/-- The core of direction `right`. -/
theorem rightCore_spec {env : Env K} (hE : LstsqContract env) {P O : ND K} {a n r l : ℕ} (hP : P.shape = [a, n, r])
    (hO : O.shape = [l, r]) :
    ∃ C, (rightMulPinv env (P.reshape [a * n, r]) O).reshape? [a, n, l] = .ok C ∧ C.shape = [a, n, l] ∧
      ∀ i < a, ∀ j < n, (∃ x : ℕ → K, ∀ b < r, ∑ c ∈ range l, x c * O.get [c, b] = P.get [i, j, b]) →
        ∀ b < r, ∑ c ∈ range l, C.get [i, j, c] * O.get [c, b] = P.get [i, j, b] := by
  have hM : (P.reshape [a * n, r]).shape = [a * n, r] := rfl
  obtain ⟨h1, h2⟩ := hE O.matT (P.reshape [a * n, r]).matT r l (a * n) (ND.matT_shape hO) (ND.matT_shape hM)
  have h3 := ND.matT_shape h1
  refine ⟨_, reshape?_ok h3 (by simp [mul_assoc]), rfl, ?_⟩
  rintro i hi j hj ⟨x, hx⟩ b hb
  have hij : i * n + j < a * n := (ND.lt_mul_iff hj).2 hi
  have := h2 (i * n + j) hij ⟨x, fun b hb => by
    rw [ND.matT_get hM, ND.reshape_merge12 hP i j b hj, ← hx b hb]
    exact sum_congr rfl fun c _ => by rw [ND.matT_get hO, mul_comm]⟩ b hb
  rw [ND.matT_get hM, ND.reshape_merge12 hP i j b hj] at this
  rw [← this]
  refine sum_congr rfl fun c _ => ?_
  rw [rightMulPinv, ND.reshape_split12 h3 i j c hj, ND.matT_get hO, ND.matT_get h1, mul_comm]

/-- The core of direction `left`. -/
theorem leftCore_spec {env : Env K} (hE : LstsqContract env) {P O : ND K} {a n r l : ℕ} (hP : P.shape = [l, n, a])
    (hO : O.shape = [l, r]) :
    ∃ C, (leftMulPinv env O (P.reshape [l, n * a])).reshape? [r, n, a] = .ok C ∧ C.shape = [r, n, a] ∧
      ∀ j < n, ∀ b < a, (∃ x : ℕ → K, ∀ i < l, ∑ c ∈ range r, O.get [i, c] * x c = P.get [i, j, b]) →
        ∀ i < l, ∑ c ∈ range r, O.get [i, c] * C.get [c, j, b] = P.get [i, j, b] := by
  have hM : (P.reshape [l, n * a]).shape = [l, n * a] := rfl
  obtain ⟨h1, h2⟩ := hE O (P.reshape [l, n * a]) l r (n * a) hO hM
  refine ⟨_, reshape?_ok h1 (by simp), rfl, ?_⟩
  rintro j hj b hb ⟨x, hx⟩ i hi
  have hij : j * a + b < n * a := (ND.lt_mul_iff hb).2 hj
  have := h2 (j * a + b) hij ⟨x, fun i hi => by rw [ND.reshape_merge23 hP i j b hb, ← hx i hi]⟩ i hi
  rw [ND.reshape_merge23 hP i j b hb] at this
  rw [← this]
  exact sum_congr rfl fun c _ => by rw [leftMulPinv, ND.reshape_split23 h1 c j b hb]

theorem getD_zip {α β : Type*} {l : List α} {m : List β} {k : ℕ} (h1 : k < l.length) (h2 : k < m.length)
    (z : α) (w : β) : (l.zip m).getD k (z, w) = (l.getD k z, m.getD k w) := by
  rw [getD_eq h1, getD_eq h2, getD_eq (by simp; omega)]
  simp

/-- `mapM` with a relation describing each result. -/
theorem mapM_exists {α β ε : Type*} {f : α → Except ε β} {Q : ℕ → β → Prop} (z : α) (w : β) :
    ∀ {l : List α}, (∀ k < l.length, ∃ b, f (l.getD k z) = .ok b ∧ Q k b) →
      ∃ r, l.mapM f = .ok r ∧ r.length = l.length ∧ ∀ k < l.length, Q k (r.getD k w) := by
  intro l
  induction l generalizing Q with
  | nil => intro _; exact ⟨[], rfl, rfl, by simp⟩
  | cons x l ih =>
    intro h
    obtain ⟨b, hb, hQ⟩ := h 0 (by simp)
    obtain ⟨r, hr, hl, hQ'⟩ := @ih (fun k => Q (k + 1)) fun k hk => by
      have := h (k + 1) (by simpa using hk)
      simpa using this
    refine ⟨b :: r, ?_, by simp [hl], ?_⟩
    · have hb' : f x = .ok b := by simpa using hb
      rw [List.mapM_cons, hb', hr]; rfl
    · intro k hk
      cases k with
      | zero => simpa using hQ
      | succ k => simpa using hQ' k (by simpa using hk)

theorem getD_dropLast {α : Type*} {l : List α} {k : ℕ} (h : k < l.length - 1) (z : α) :
    l.dropLast.getD k z = l.getD k z := by
  rw [getD_eq (by simpa using h), getD_eq (by omega)]
  simp

theorem getD_tail {α : Type*} (l : List α) (k : ℕ) (z : α) : l.tail.getD k z = l.getD (k + 1) z := by
  cases l <;> simp

theorem getLastD_eq {α : Type*} (l : List α) (z : α) : l.getLastD z = l.getD (l.length - 1) z := by
  cases l with
  | nil => rfl
  | cons a l => rw [List.getLastD_cons, getD_eq (by simp)]; simp [List.getLastD_eq_getLast?, List.getLast?_eq_getElem?] ; cases l <;> simp

theorem aug_left {lr : List ℕ} {k : ℕ} (h : k ≤ lr.length) : (1 :: lr ++ [1]).getD k 0 = (1 :: lr).getD k 0 := by
  rw [List.getD_append _ _ _ _ (by simp; omega)]

theorem aug_right {lr : List ℕ} {k : ℕ} (h : k < lr.length) : (1 :: lr ++ [1]).getD (k + 1) 0 = lr.getD k 0 := by
  rw [aug_left (by omega), List.getD_cons_succ]

theorem aug_right' {lr : List ℕ} (k : ℕ) : (1 :: lr ++ [1]).getD (k + 1) 0 = (lr ++ [1]).getD k 0 := by
  simp

theorem aug_last {lr : List ℕ} {k : ℕ} (h : k = lr.length + 1) : (1 :: lr ++ [1]).getD k 0 = 1 := by
  subst h
  rw [List.getD_append_right _ _ _ _ (by simp)]; simp

/-- The reassembled cores of direction `right`, whatever is known about one core. -/
theorem assembleRight_each {env : Env K} {q : ℕ → ℕ → ℕ → ℕ → ND K → ND K → ND K → Prop}
    (hE : ∀ (P O : ND K) (a n r l : ℕ), P.shape = [a, n, r] → O.shape = [l, r] →
      ∃ C, (rightMulPinv env (P.reshape [a * n, r]) O).reshape? [a, n, l] = .ok C ∧ C.shape = [a, n, l] ∧ q a n r l C P O)
    {s : Container K} {sh lr rr : List ℕ}
    (hd : 1 ≤ sh.length) (hl : lr.length = sh.length - 1) (hr : rr.length = sh.length - 1) (hs : s.HasShape sh lr rr) :
    ∃ cs, assembleRight env s = .ok cs ∧ cs.length = sh.length ∧
      Cores cs (fun k => (1 :: lr ++ [1]).getD k 0) (fun k => sh.getD k 0) ∧
      cs.getD (sh.length - 1) (ND.zeros []) = s.psi.getD (sh.length - 1) (ND.zeros []) ∧
      ∀ mu < sh.length - 1, q ((1 :: lr).getD mu 0) (sh.getD mu 0) (rr.getD mu 0) (lr.getD mu 0)
        (cs.getD mu (ND.zeros [])) (s.psi.getD mu (ND.zeros [])) (s.omega.getD mu (ND.zeros [])) := by
  have hzl : (s.psi.dropLast.zip s.omega).length = sh.length - 1 := by
    simp [hs.psiLen, hs.omegaLen]
  have key : ∀ k < sh.length - 1,
      (s.psi.dropLast.zip s.omega).getD k (ND.zeros [], ND.zeros [])
        = (s.psi.getD k (ND.zeros []), s.omega.getD k (ND.zeros [])) := by
    intro k hk
    rw [getD_zip (by simpa [hs.psiLen] using hk) (by rw [hs.omegaLen]; exact hk), getD_dropLast (by rw [hs.psiLen]; exact hk)]
  have hpsi : ∀ k < sh.length - 1, (s.psi.getD k (ND.zeros [])).shape
      = [(1 :: lr).getD k 0, sh.getD k 0, rr.getD k 0] := by
    intro k hk
    rw [hs.psi k (by omega), List.getD_append _ _ _ _ (by omega)]
  obtain ⟨cs, h1, h2, h3⟩ := mapM_exists (f := fun po : ND K × ND K =>
      (rightMulPinv env (po.1.reshape [po.1.dim 0 * po.1.dim 1, po.1.dim 2]) po.2).reshape?
        [po.1.dim 0, po.1.dim 1, po.2.dim 0])
    (Q := fun k C => C.shape = [(1 :: lr).getD k 0, sh.getD k 0, lr.getD k 0] ∧
      q ((1 :: lr).getD k 0) (sh.getD k 0) (rr.getD k 0) (lr.getD k 0) C (s.psi.getD k (ND.zeros []))
        (s.omega.getD k (ND.zeros [])))
    (ND.zeros [], ND.zeros []) (ND.zeros []) (l := s.psi.dropLast.zip s.omega) (by
      intro k hk
      rw [hzl] at hk
      rw [key k hk]
      have hP := hpsi k hk
      have hO := hs.omega k hk
      rw [(dim_of_shape3 hP).1, (dim_of_shape3 hP).2.1, (dim_of_shape3 hP).2.2]
      have hd0 : (s.omega.getD k (ND.zeros [])).dim 0 = lr.getD k 0 := by
        generalize s.omega.getD k (ND.zeros []) = O at hO
        simp [ND.dim, hO]
      rw [hd0]
      exact hE _ _ _ _ _ _ hP hO)
  rw [hzl] at h2 h3
  refine ⟨cs ++ [s.psi.getLastD (ND.zeros [])], ?_, by simp [h2]; omega, ?_, ?_, ?_⟩
  · unfold assembleRight
    rw [h1]
  · intro k hk
    simp only [List.length_append, h2, List.length_cons, List.length_nil] at hk
    beta_reduce
    rw [aug_left (by omega)]
    by_cases hk' : k < sh.length - 1
    · rw [List.getD_append _ _ _ _ (by omega), (h3 k hk').1, aug_right (by omega)]
    · obtain rfl : k = sh.length - 1 := by omega
      rw [List.getD_append_right _ _ _ _ (by omega), h2, Nat.sub_self, List.getD_cons_zero, getLastD_eq, hs.psiLen,
        hs.psi _ (by omega), aug_right']
      congr 3
      rw [List.getD_append_right _ _ _ _ (by omega), List.getD_append_right _ _ _ _ (by omega), hr, hl]
  · rw [List.getD_append_right _ _ _ _ (by omega), h2, Nat.sub_self, List.getD_cons_zero, getLastD_eq, hs.psiLen]
  · intro mu hmu
    rw [List.getD_append _ _ _ _ (by omega)]
    exact (h3 mu hmu).2

/-- The reassembled cores of direction `right`. -/
theorem assembleRight_spec {env : Env K} (hE : LstsqContract env) {s : Container K} {sh lr rr : List ℕ}
    (hd : 1 ≤ sh.length) (hl : lr.length = sh.length - 1) (hr : rr.length = sh.length - 1) (hs : s.HasShape sh lr rr) :
    ∃ cs, assembleRight env s = .ok cs ∧ cs.length = sh.length ∧
      Cores cs (fun k => (1 :: lr ++ [1]).getD k 0) (fun k => sh.getD k 0) ∧
      cs.getD (sh.length - 1) (ND.zeros []) = s.psi.getD (sh.length - 1) (ND.zeros []) ∧
      ∀ mu < sh.length - 1, ∀ i < (1 :: lr).getD mu 0, ∀ j < sh.getD mu 0,
        (∃ x : ℕ → K, ∀ b < rr.getD mu 0, ∑ c ∈ range (lr.getD mu 0), x c * (s.omega.getD mu (ND.zeros [])).get [c, b]
          = (s.psi.getD mu (ND.zeros [])).get [i, j, b]) →
        ∀ b < rr.getD mu 0, ∑ c ∈ range (lr.getD mu 0), (cs.getD mu (ND.zeros [])).get [i, j, c]
          * (s.omega.getD mu (ND.zeros [])).get [c, b] = (s.psi.getD mu (ND.zeros [])).get [i, j, b] := by
  exact assembleRight_each (q := fun a n r l C P O => ∀ i < a, ∀ j < n,
      (∃ x : ℕ → K, ∀ b < r, ∑ c ∈ range l, x c * O.get [c, b] = P.get [i, j, b]) →
        ∀ b < r, ∑ c ∈ range l, C.get [i, j, c] * O.get [c, b] = P.get [i, j, b])
    (fun _ _ _ _ _ _ hP hO => rightCore_spec hE hP hO) hd hl hr hs

/-- The reassembled cores of direction `left`, whatever is known about one core. -/
theorem assembleLeft_each {env : Env K} {q : ℕ → ℕ → ℕ → ℕ → ND K → ND K → ND K → Prop}
    (hE : ∀ (P O : ND K) (a n r l : ℕ), P.shape = [l, n, a] → O.shape = [l, r] →
      ∃ C, (leftMulPinv env O (P.reshape [l, n * a])).reshape? [r, n, a] = .ok C ∧ C.shape = [r, n, a] ∧ q a n r l C P O)
    {s : Container K} {sh lr rr : List ℕ}
    (hd : 1 ≤ sh.length) (hr : rr.length = sh.length - 1) (hs : s.HasShape sh lr rr) :
    ∃ cs, assembleLeft env s = .ok cs ∧ cs.length = sh.length ∧
      Cores cs (fun k => (1 :: rr ++ [1]).getD k 0) (fun k => sh.getD k 0) ∧
      cs.getD 0 (ND.zeros []) = s.psi.getD 0 (ND.zeros []) ∧
      ∀ mu < sh.length - 1, q ((rr ++ [1]).getD (mu + 1) 0) (sh.getD (mu + 1) 0) (rr.getD mu 0) (lr.getD mu 0)
        (cs.getD (mu + 1) (ND.zeros [])) (s.psi.getD (mu + 1) (ND.zeros [])) (s.omega.getD mu (ND.zeros [])) := by
  have hzl : (s.psi.tail.zip s.omega).length = sh.length - 1 := by
    simp [hs.psiLen, hs.omegaLen]
  have key : ∀ k < sh.length - 1,
      (s.psi.tail.zip s.omega).getD k (ND.zeros [], ND.zeros [])
        = (s.psi.getD (k + 1) (ND.zeros []), s.omega.getD k (ND.zeros [])) := by
    intro k hk
    rw [getD_zip (by simpa [hs.psiLen] using hk) (by rw [hs.omegaLen]; exact hk), getD_tail]
  have hpsi : ∀ k < sh.length - 1, (s.psi.getD (k + 1) (ND.zeros [])).shape
      = [lr.getD k 0, sh.getD (k + 1) 0, (rr ++ [1]).getD (k + 1) 0] := by
    intro k hk
    rw [hs.psi (k + 1) (by omega), List.getD_cons_succ]
  obtain ⟨cs, h1, h2, h3⟩ := mapM_exists (f := fun po : ND K × ND K =>
      (leftMulPinv env po.2 (po.1.reshape [po.1.dim 0, po.1.dim 1 * po.1.dim 2])).reshape?
        [po.2.dim 1, po.1.dim 1, po.1.dim 2])
    (Q := fun k C => C.shape = [rr.getD k 0, sh.getD (k + 1) 0, (rr ++ [1]).getD (k + 1) 0] ∧
      q ((rr ++ [1]).getD (k + 1) 0) (sh.getD (k + 1) 0) (rr.getD k 0) (lr.getD k 0) C
        (s.psi.getD (k + 1) (ND.zeros [])) (s.omega.getD k (ND.zeros [])))
    (ND.zeros [], ND.zeros []) (ND.zeros []) (l := s.psi.tail.zip s.omega) (by
      intro k hk
      rw [hzl] at hk
      rw [key k hk]
      have hP := hpsi k hk
      have hO := hs.omega k hk
      rw [(dim_of_shape3 hP).1, (dim_of_shape3 hP).2.1, (dim_of_shape3 hP).2.2]
      have hd0 : (s.omega.getD k (ND.zeros [])).dim 1 = rr.getD k 0 := by
        generalize s.omega.getD k (ND.zeros []) = O at hO
        simp [ND.dim, hO]
      rw [hd0]
      exact hE _ _ _ _ _ _ hP hO)
  rw [hzl] at h2 h3
  have hhead : s.psi.headD (ND.zeros []) = s.psi.getD 0 (ND.zeros []) := by
    cases s.psi <;> rfl
  refine ⟨s.psi.headD (ND.zeros []) :: cs, ?_, by simp [h2]; omega, ?_, by rw [List.getD_cons_zero, hhead], ?_⟩
  · unfold assembleLeft
    rw [h1]
  · intro k hk
    simp only [List.length_cons, h2] at hk
    beta_reduce
    cases k with
    | zero =>
      rw [List.getD_cons_zero, hhead, hs.psi 0 (by omega), aug_right']
      rfl
    | succ k => rw [List.getD_cons_succ, (h3 k (by omega)).1, aug_right (by omega), aug_right']
  · intro mu hmu
    rw [List.getD_cons_succ]
    exact (h3 mu hmu).2


/-! ### recovery -/

/-- The reassembled cores of direction `left`. -/
theorem assembleLeft_spec {env : Env K} (hE : LstsqContract env) {s : Container K} {sh lr rr : List ℕ}
    (hd : 1 ≤ sh.length) (hr : rr.length = sh.length - 1) (hs : s.HasShape sh lr rr) :
    ∃ cs, assembleLeft env s = .ok cs ∧ cs.length = sh.length ∧
      Cores cs (fun k => (1 :: rr ++ [1]).getD k 0) (fun k => sh.getD k 0) ∧
      cs.getD 0 (ND.zeros []) = s.psi.getD 0 (ND.zeros []) ∧
      ∀ mu < sh.length - 1, ∀ j < sh.getD (mu + 1) 0, ∀ b < (rr ++ [1]).getD (mu + 1) 0,
        (∃ x : ℕ → K, ∀ i < lr.getD mu 0, ∑ c ∈ range (rr.getD mu 0), (s.omega.getD mu (ND.zeros [])).get [i, c] * x c
          = (s.psi.getD (mu + 1) (ND.zeros [])).get [i, j, b]) →
        ∀ i < lr.getD mu 0, ∑ c ∈ range (rr.getD mu 0), (s.omega.getD mu (ND.zeros [])).get [i, c]
          * (cs.getD (mu + 1) (ND.zeros [])).get [c, j, b] = (s.psi.getD (mu + 1) (ND.zeros [])).get [i, j, b] := by
  exact assembleLeft_each (q := fun a n r l C P O => ∀ j < n, ∀ b < a,
      (∃ x : ℕ → K, ∀ i < l, ∑ c ∈ range r, O.get [i, c] * x c = P.get [i, j, b]) →
        ∀ i < l, ∑ c ∈ range r, O.get [i, c] * C.get [c, j, b] = P.get [i, j, b])
    (fun _ _ _ _ _ _ hP hO => leftCore_spec hE hP hO) hd hr hs

theorem sketchOf_hasShape (sh : List ℕ) (f : List ℕ → K) (L R : Mats K) (lr rr : List ℕ) :
    (sketchOf sh f L R lr rr).HasShape sh lr rr := by
  refine ⟨rfl, rfl, rfl, by simp [sketchOf], by simp [sketchOf], fun mu hmu => ?_, fun mu hmu => ?_⟩
  · show ND.shape (((List.range sh.length).map _).getD mu _) = _
    rw [getD_map_range _ _ _ _ hmu]; rfl
  · show ND.shape (((List.range (sh.length - 1)).map _).getD mu _) = _
    rw [getD_map_range _ _ _ _ hmu]; rfl

theorem sketchOf_psi_get {sh : List ℕ} {f : List ℕ → K} {L R : Mats K} {lr rr : List ℕ} {mu a j b : ℕ}
    (hmu : mu < sh.length) (ha : a < (1 :: lr).getD mu 0) (hj : j < sh.getD mu 0) (hb : b < (rr ++ [1]).getD mu 0) :
    ((sketchOf sh f L R lr rr).psi.getD mu (ND.zeros [])).get [a, j, b] = psiSpec sh f L R mu a j b := by
  show ND.get (((List.range sh.length).map _).getD mu _) _ = _
  rw [getD_map_range _ _ _ _ hmu, ND.ofFn_get (show InR [_, _, _] [a, j, b] from ⟨ha, hj, hb, trivial⟩)]
  rfl

theorem sketchOf_omega_get {sh : List ℕ} {f : List ℕ → K} {L R : Mats K} {lr rr : List ℕ} {mu a b : ℕ}
    (hmu : mu < sh.length - 1) (ha : a < lr.getD mu 0) (hb : b < rr.getD mu 0) :
    ((sketchOf sh f L R lr rr).omega.getD mu (ND.zeros [])).get [a, b] = omegaSpec sh f L R mu a b := by
  show ND.get (((List.range (sh.length - 1)).map _).getD mu _) _ = _
  rw [getD_map_range _ _ _ _ hmu, ND.ofFn_get (show InR [_, _] [a, b] from ⟨ha, hb, trivial⟩)]
  rfl

/-- The last Psi core is the left contraction of all modes but the last. -/
theorem psiSpec_last {sh : List ℕ} {f : List ℕ → K} {L R : Mats K} (hd : 1 ≤ sh.length)
    (hR : ∀ b, R sh.length [] b = 1) (a j b : ℕ) :
    psiSpec sh f L R (sh.length - 1) a j b = pcL sh f L (sh.length - 1) a [j] := by
  rw [psiSpec_left, Nat.sub_add_cancel hd, List.drop_length]
  simp [sumIdx, hR]

theorem psiSpec_first {sh : List ℕ} {f : List ℕ → K} {L R : Mats K} (hL : ∀ a, L 0 [] a = 1) (a j b : ℕ) :
    psiSpec sh f L R 0 a j b = pcR sh f R 1 [j] b := by
  rw [psiSpec_right]
  simp [sumIdx, hL]

theorem Cores.valid {cores : List (ND K)} {r n : ℕ → ℕ} (h : Cores cores r n) (h0 : r 0 = 1)
    (hl : 1 ≤ cores.length) (h1 : r cores.length = 1) : (TT.mk cores).Valid := by
  refine ⟨by intro h; simp at h; simp [h] at hl, ?_⟩
  have := h.chain _ le_rfl
  rwa [List.take_length, h0, h1] at this

theorem Cores.ttShape {cores : List (ND K)} {r n : ℕ → ℕ} (h : Cores cores r n) :
    (TT.mk cores).shape = (List.range cores.length).map n := by
  have := h.coreShape _ le_rfl
  rwa [List.take_length] at this

/-- Direction `right` recovers the array. -/
theorem recover_right {env : Env K} (hE : LstsqContract env) {sh lr rr : List ℕ} {f : List ℕ → K} {L R : Mats K}
    (hd : 1 ≤ sh.length) (hl : lr.length = sh.length - 1) (hr : rr.length = sh.length - 1)
    (hL : ∀ a, L 0 [] a = 1) (hR : ∀ b, R sh.length [] b = 1)
    (hrow : ∀ mu < sh.length - 1, RowSpan sh f L (mu + 1) (lr.getD mu 0))
    (hcol : ∀ mu < sh.length - 1, ColSpan sh f R (mu + 1) (rr.getD mu 0)) :
    ∃ cs, assembleRight env (sketchOf sh f L R lr rr) = .ok cs ∧ (TT.mk cs).Valid ∧ (TT.mk cs).shape = sh ∧
      ∀ i, InR sh i → ttEntry (TT.mk cs) i = f i := by
  obtain ⟨cs, h1, h2, h3, h4, h5⟩ := assembleRight_spec hE hd hl hr (sketchOf_hasShape sh f L R lr rr)
  refine ⟨cs, h1, h3.valid rfl (by omega) (aug_last (by omega)), ?_, ?_⟩
  · rw [h3.ttShape, h2, ND.map_range_getD]
  · intro i hi
    have := ttVal_drop h3 sh h2 (aug_last (by omega)) (pcL sh f L) hd ?_ ?_ (sh.length - 1) (by omega)
    · rw [Nat.sub_self] at this
      rw [ttEntry, ← List.drop_zero (l := cs), this 0 Nat.one_pos i hi]
      simp [pcL, sumIdx, hL]
    · intro a ha j hj
      beta_reduce at ha
      rw [aug_left (by omega)] at ha
      rw [h4, sketchOf_psi_get (by omega) ha hj (by
        rw [List.getD_append_right _ _ _ _ (by omega), hr, Nat.sub_self]; exact Nat.one_pos), psiSpec_last hd hR]
    · intro mu hmu a ha j hj q hq
      beta_reduce at ha
      rw [aug_left (by omega)] at ha
      rw [aug_right (by omega)]
      refine right_core_step (L' := L) (by omega) (hcol mu hmu) (fun a j c => (cs.getD mu (ND.zeros [])).get [a, j, c])
        a j hj ?_ q hq
      have e1 : ∀ b < rr.getD mu 0, ((sketchOf sh f L R lr rr).psi.getD mu (ND.zeros [])).get [a, j, b]
          = psiSpec sh f L R mu a j b := fun b hb =>
        sketchOf_psi_get (by omega) ha hj (by rwa [List.getD_append _ _ _ _ (by omega)])
      have e2 : ∀ b < rr.getD mu 0, ∀ x : ℕ → K, ∑ c ∈ range (lr.getD mu 0),
          x c * ((sketchOf sh f L R lr rr).omega.getD mu (ND.zeros [])).get [c, b]
          = ∑ c ∈ range (lr.getD mu 0), x c * omegaSpec sh f L R mu c b := fun b hb x =>
        sum_congr rfl fun c hc => by rw [sketchOf_omega_get hmu (by simpa using hc) hb]
      intro b hb
      obtain ⟨x, hx⟩ := right_core_exists (L' := L) (R := R) (by omega) (hrow mu hmu) a j hj
      have := h5 mu hmu a ha j hj ⟨x, fun b hb => by rw [e1 b hb, e2 b hb, hx b]⟩ b hb
      rw [e1 b hb] at this
      rw [← this]
      exact (e2 b hb fun c => (cs.getD mu (ND.zeros [])).get [a, j, c]).symm

/-- Direction `left` recovers the array. -/
theorem recover_left {env : Env K} (hE : LstsqContract env) {sh lr rr : List ℕ} {f : List ℕ → K} {L R : Mats K}
    (hd : 1 ≤ sh.length) (hr : rr.length = sh.length - 1)
    (hL : ∀ a, L 0 [] a = 1) (hR : ∀ b, R sh.length [] b = 1)
    (hrow : ∀ mu < sh.length - 1, RowSpan sh f L (mu + 1) (lr.getD mu 0))
    (hcol : ∀ mu < sh.length - 1, ColSpan sh f R (mu + 1) (rr.getD mu 0)) :
    ∃ cs, assembleLeft env (sketchOf sh f L R lr rr) = .ok cs ∧ (TT.mk cs).Valid ∧ (TT.mk cs).shape = sh ∧
      ∀ i, InR sh i → ttEntry (TT.mk cs) i = f i := by
  obtain ⟨cs, h1, h2, h3, h4, h5⟩ := assembleLeft_spec hE hd hr (sketchOf_hasShape sh f L R lr rr)
  refine ⟨cs, h1, h3.valid rfl (by omega) (aug_last (by omega)), ?_, ?_⟩
  · rw [h3.ttShape, h2, ND.map_range_getD]
  · intro i hi
    have := ttVal_take h3 sh h2 rfl (pcR sh f R) hd ?_ ?_ (sh.length - 1) (by omega)
    · rw [Nat.sub_add_cancel hd] at this
      have := this i (by rwa [List.take_length]) 0 (by beta_reduce; rw [aug_last (by omega)]; exact Nat.one_pos)
      rw [ttEntry, ← List.take_length (l := cs), h2, this]
      simp [pcR, sumIdx, hR]
    · intro j hj b hb
      beta_reduce at hb
      rw [aug_right'] at hb
      rw [h4, sketchOf_psi_get (by omega) Nat.one_pos hj hb, psiSpec_first hL]
    · intro mu hmu p hp j hj b hb
      beta_reduce at hb
      rw [aug_right'] at hb
      rw [aug_right (by omega)]
      refine left_core_step (L := L) (by omega) (hrow mu (by omega)) (fun a j c => (cs.getD (mu + 1) (ND.zeros [])).get [a, j, c])
        j b ?_ hj p hp
      have e1 : ∀ a < lr.getD mu 0, ((sketchOf sh f L R lr rr).psi.getD (mu + 1) (ND.zeros [])).get [a, j, b]
          = psiSpec sh f L R (mu + 1) a j b := fun a ha =>
        sketchOf_psi_get (by omega) (by rwa [List.getD_cons_succ]) hj hb
      have e2 : ∀ a < lr.getD mu 0, ∀ x : ℕ → K, ∑ c ∈ range (rr.getD mu 0),
          ((sketchOf sh f L R lr rr).omega.getD mu (ND.zeros [])).get [a, c] * x c
          = ∑ c ∈ range (rr.getD mu 0), omegaSpec sh f L R mu a c * x c := fun a ha x =>
        sum_congr rfl fun c hc => by rw [sketchOf_omega_get (by omega) ha (by simpa using hc)]
      intro a ha
      obtain ⟨x, hx⟩ := left_core_exists (L := L) (by omega) (hcol mu (by omega)) j b hj
      have := h5 mu (by omega) j hj b hb ⟨x, fun a ha => by rw [e1 a ha, e2 a ha, hx a]⟩ a ha
      rw [e1 a ha] at this
      rw [← this]
      exact (e2 a ha fun c => (cs.getD (mu + 1) (ND.zeros [])).get [c, j, b]).symm

end TTS
