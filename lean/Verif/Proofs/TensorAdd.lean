import Verif.Proofs.TensorDot

/-! TT addition, zero, splitting, sparse round trip, partial contractions, matricization. -/

namespace TTS

open Finset

variable {K : Type*}

/-! ### concatenation -/

section
variable [Zero K]

theorem ND.concat2_shape {A B : ND K} {a b c a' b' c' : ℕ} (hA : A.shape = [a, b, c])
    (hB : B.shape = [a', b', c']) : (ND.concat2 A B).shape = [a, b, c + c'] := by
  simp [ND.concat2, ND.dim, hA, hB]

theorem ND.concat2_get {A B : ND K} {a b c c' : ℕ} (hA : A.shape = [a, b, c])
    (hB : B.shape = [a, b, c']) (x y z : ℕ) : (ND.concat2 A B).get [x, y, z]
      = if z < c then A.get [x, y, z] else B.get [x, y, z - c] := by
  by_cases h : InR (ND.concat2 A B).shape [x, y, z]
  · refine (ND.ofFn_get h).trans ?_
    simp [ND.dim, hA]
  · rw [ND.supp _ _ h]
    rw [ND.concat2_shape hA hB] at h
    simp only [inR_cons_cons, inR_nil_nil, and_true] at h
    split_ifs with hz
    · rw [ND.oob3 hA]; intro hh; apply h; omega
    · rw [ND.oob3 hB]; intro hh; apply h; omega

theorem ND.concat0_shape {A B : ND K} {a b c a' b' c' : ℕ} (hA : A.shape = [a, b, c])
    (hB : B.shape = [a', b', c']) : (ND.concat0 A B).shape = [a + a', b, c] := by
  simp [ND.concat0, ND.dim, hA, hB]

theorem ND.concat0_get {A B : ND K} {a b c a' : ℕ} (hA : A.shape = [a, b, c])
    (hB : B.shape = [a', b, c]) (x y z : ℕ) : (ND.concat0 A B).get [x, y, z]
      = if x < a then A.get [x, y, z] else B.get [x - a, y, z] := by
  by_cases h : InR (ND.concat0 A B).shape [x, y, z]
  · refine (ND.ofFn_get h).trans ?_
    simp [ND.dim, hA]
  · rw [ND.supp _ _ h]
    rw [ND.concat0_shape hA hB] at h
    simp only [inR_cons_cons, inR_nil_nil, and_true] at h
    split_ifs with hz
    · rw [ND.oob3 hA]; intro hh; apply h; omega
    · rw [ND.oob3 hB]; intro hh; apply h; omega

/-- middle core of `TensorTrain.add` -/
def addBlock (C1 C2 : ND K) : ND K :=
  ND.concat0 (ND.concat2 C1 (ND.zeros [C1.dim 0, C1.dim 1, C2.dim 2]))
    (ND.concat2 (ND.zeros [C2.dim 0, C1.dim 1, C1.dim 2]) C2)

theorem addBlock_shape {A B : ND K} {a n b a' b' : ℕ} (hA : A.shape = [a, n, b])
    (hB : B.shape = [a', n, b']) : (addBlock A B).shape = [a + a', n, b + b'] := by
  have h1 : (ND.zeros [A.dim 0, A.dim 1, B.dim 2] : ND K).shape = [a, n, b'] := by
    simp [ND.dim, hA, hB]
  have h2 : (ND.zeros [B.dim 0, A.dim 1, A.dim 2] : ND K).shape = [a', n, b] := by
    simp [ND.dim, hA, hB]
  exact ND.concat0_shape (ND.concat2_shape hA h1) (ND.concat2_shape h2 hB)

theorem addBlock_get {A B : ND K} {a n b a' b' : ℕ} (hA : A.shape = [a, n, b])
    (hB : B.shape = [a', n, b']) (x y z : ℕ) : (addBlock A B).get [x, y, z]
      = if x < a then (if z < b then A.get [x, y, z] else 0)
        else (if z < b then 0 else B.get [x - a, y, z - b]) := by
  have h1 : (ND.zeros [A.dim 0, A.dim 1, B.dim 2] : ND K).shape = [a, n, b'] := by
    simp [ND.dim, hA, hB]
  have h2 : (ND.zeros [B.dim 0, A.dim 1, A.dim 2] : ND K).shape = [a', n, b] := by
    simp [ND.dim, hA, hB]
  rw [addBlock, ND.concat0_get (ND.concat2_shape hA h1) (ND.concat2_shape h2 hB),
    ND.concat2_get hA h1, ND.concat2_get h2 hB]
  simp

end

section
variable [CommSemiring K]

theorem addMid : ∀ (As Bs : List (ND K)) (r r' s s' : ℕ), TTChain r As s → TTChain r' Bs s' →
    coreShape As = coreShape Bs →
    TTChain (r + r') (List.zipWith addBlock As Bs) (s + s') ∧
    coreShape (List.zipWith addBlock As Bs) = coreShape As ∧
    ∀ p a b, p.length = As.length → a < r + r' → b < s + s' →
      ttVal (List.zipWith addBlock As Bs) p a b
        = if a < r then (if b < s then ttVal As p a b else 0)
          else (if b < s then 0 else ttVal Bs p (a - r) (b - s))
  | [], [], r, r', s, s', hA, hB, _ => by
    cases hA; cases hB
    refine ⟨rfl, rfl, ?_⟩
    intro p a b hp ha hb
    have : p = [] := by simpa using hp
    subst this
    simp only [List.zipWith_nil_left, ttVal_nil_nil]
    split_ifs <;> first | rfl | omega
  | A :: As, B :: Bs, r, r', s, s', ⟨n, t, hA, hAs⟩, ⟨n', t', hB, hBs⟩, hsh => by
    have hn : n = n' := by
      have : A.dim 1 = B.dim 1 := by simpa [coreShape] using (List.cons.inj hsh).1
      simpa [ND.dim, hA, hB] using this
    subst hn
    obtain ⟨h1, h2, h3⟩ := addMid As Bs t t' s s' hAs hBs (List.cons.inj hsh).2
    have hbl := addBlock_shape hA hB
    refine ⟨⟨n, t + t', hbl, h1⟩, ?_, ?_⟩
    · show (addBlock A B).dim 1 :: coreShape (List.zipWith addBlock As Bs)
        = A.dim 1 :: coreShape As
      rw [h2]; simp [ND.dim, hbl, hA]
    · intro p a b hp ha hb
      match p, hp with
      | i :: p, hp =>
        simp only [List.zipWith_cons_cons]
        rw [ttVal_cons hbl, ttVal_cons hA, ttVal_cons hB, sum_range_add]
        have hp' : p.length = As.length := by simpa using hp
        have e1 : ∀ x ∈ range t, (addBlock A B).get [a, i, x]
              * ttVal (List.zipWith addBlock As Bs) p x b
            = if a < r then (if b < s then A.get [a, i, x] * ttVal As p x b else 0) else 0 := by
          intro x hx
          have hx' := mem_range.1 hx
          rw [addBlock_get hA hB, h3 p x b hp' (by omega) hb]
          split_ifs <;> simp
        have e2 : ∀ x ∈ range t', (addBlock A B).get [a, i, t + x]
              * ttVal (List.zipWith addBlock As Bs) p (t + x) b
            = if a < r then 0 else (if b < s then 0 else B.get [a - r, i, x]
              * ttVal Bs p x (b - s)) := by
          intro x hx
          have hx' := mem_range.1 hx
          rw [addBlock_get hA hB, h3 p (t + x) b hp' (by omega) hb,
            if_neg (show ¬ t + x < t by omega), if_neg (show ¬ t + x < t by omega),
            if_neg (show ¬ t + x < t by omega), Nat.add_sub_cancel_left]
          split_ifs <;> simp
        rw [sum_congr rfl e1, sum_congr rfl e2]
        split_ifs <;> simp
  | [], _ :: _, _, _, _, _, _, _, h => by simp [coreShape] at h
  | _ :: _, [], _, _, _, _, _, _, h => by simp [coreShape] at h

theorem TT.add_spec {X Y : TT K} (hX : X.Valid) (hY : Y.Valid) (hs : X.shape = Y.shape)
    (hd : 2 ≤ X.shape.length) :
    (X.add Y).Valid ∧ (X.add Y).shape = X.shape ∧
    (X.add Y).rank = List.zipWith (· + ·) X.rank Y.rank ∧
    ∀ i, ttEntry (X.add Y) i = ttEntry X i + ttEntry Y i := by
  obtain ⟨As⟩ := X
  obtain ⟨Bs⟩ := Y
  have hl : As.length = Bs.length := by
    have := congrArg List.length hs; simpa [TT.shape] using this
  have hd' : 2 ≤ As.length := by simpa [TT.shape] using hd
  obtain ⟨hne, hch⟩ := hX
  obtain ⟨hne', hch'⟩ := hY
  -- split both lists into first, middle, last
  have dec : ∀ l : List (ND K), 2 ≤ l.length → ∃ a m z, l = a :: (m ++ [z]) := by
    intro l hl
    match l, hl with
    | a :: b :: l, _ =>
      exact ⟨a, (b :: l).dropLast, (b :: l).getLast (by simp), by
        rw [List.dropLast_append_getLast]⟩
  obtain ⟨A, M, L, rfl⟩ := dec As hd'
  obtain ⟨A', M', L', rfl⟩ := dec Bs (by omega)
  obtain ⟨n, t, hA, hrest⟩ := hch
  obtain ⟨n', t', hA', hrest'⟩ := hch'
  obtain ⟨u, hM, m, v, hL, hv⟩ := hrest.split
  obtain ⟨u', hM', m', v', hL', hv'⟩ := hrest'.split
  cases hv; cases hv'
  have hs2 : n = n' ∧ coreShape M = coreShape M' ∧ m = m' := by
    have h0 := hs
    simp only [TT.shape, List.map_cons, List.map_append, List.map_nil, List.cons.injEq] at h0
    obtain ⟨ha, hb⟩ := h0
    have := List.append_inj' hb rfl
    refine ⟨by simpa [ND.dim, hA, hA'] using ha, this.1, ?_⟩
    simpa [ND.dim, hL, hL'] using this.2
  obtain ⟨rfl, hMs, rfl⟩ := hs2
  obtain ⟨h1, h2, h3⟩ := addMid M M' t t' u u' hM hM' hMs
  have hcores : (TT.add ⟨A :: (M ++ [L])⟩ ⟨A' :: (M' ++ [L'])⟩).cores
      = ND.concat2 A A' :: (List.zipWith addBlock M M' ++ [ND.concat0 L L']) := by
    simp only [TT.add, List.headD_cons, List.tail_cons, List.dropLast_concat,
      List.getLastD_eq_getLast?]
    rw [show A :: (M ++ [L]) = (A :: M) ++ [L] by rfl, show A' :: (M' ++ [L']) = (A' :: M') ++ [L'] by rfl,
      List.getLast?_concat, List.getLast?_concat]
    rfl
  have hF := ND.concat2_shape hA hA'
  have hZ := ND.concat0_shape hL hL'
  refine ⟨⟨by rw [hcores]; simp, by rw [hcores]; exact ⟨n, t + t', hF, h1.append ⟨m, 1, hZ, rfl⟩⟩⟩,
    ?_, ?_, ?_⟩
  · simp only [TT.shape, hcores, List.map_cons, List.map_append, List.map_nil]
    have : List.map (fun C => C.dim 1) (List.zipWith addBlock M M') = List.map (fun C => C.dim 1) M :=
      h2
    rw [this]
    simp [ND.dim, hF, hZ, hA, hL]
  · simp only [TT.rank, hcores, List.tail_cons, List.map_append, List.map_cons, List.map_nil]
    have hlM : M.length = M'.length := by simpa using hl
    have : ∀ (M M' : List (ND K)) (t t' u u' : ℕ), TTChain t M u → TTChain t' M' u' →
        coreShape M = coreShape M' →
        List.map (fun C => C.dim 0) (List.zipWith addBlock M M')
          = List.zipWith (· + ·) (List.map (fun C => C.dim 0) M) (List.map (fun C => C.dim 0) M') := by
      intro M
      induction M with
      | nil => intros; rfl
      | cons C M ih =>
        intro M' t t' u u' hc hc' hcs
        match M', hc', hcs with
        | C' :: M', ⟨n', s', hC', hc'⟩, hcs =>
          obtain ⟨n, s, hC, hc⟩ := hc
          have hn : n = n' := by
            have : C.dim 1 = C'.dim 1 := by simpa [coreShape] using (List.cons.inj hcs).1
            simpa [ND.dim, hC, hC'] using this
          subst hn
          simp only [List.zipWith_cons_cons, List.map_cons]
          rw [ih M' s s' u u' hc hc' (List.cons.inj hcs).2]
          simp [ND.dim, addBlock_shape hC hC', hC, hC']
        | [], _, hcs => simp [coreShape] at hcs
    rw [this M M' t t' u u' hM hM' hMs, List.zipWith_append (by simpa using hlM)]
    simp [ND.dim, hZ, hL, hL']
  · intro i
    by_cases hil : i.length = M.length + 2
    · obtain ⟨j, p, k, rfl⟩ : ∃ j p k, i = j :: (p ++ [k]) := by
        match i, hil with
        | a :: b :: l, _ =>
          exact ⟨a, (b :: l).dropLast, (b :: l).getLast (by simp), by
            rw [List.dropLast_append_getLast]⟩
      have hp : p.length = M.length := by simpa using hil
      have hlM : M.length = M'.length := by simpa using hl
      rw [ttEntry, ttEntry, ttEntry, hcores, ttVal_cons hF, ttVal_cons hA, ttVal_cons hA',
        sum_range_add]
      congr 1
      · refine sum_congr rfl fun x hx => ?_
        have hx' := mem_range.1 hx
        rw [ND.concat2_get hA hA', if_pos hx', ttVal_concat h1 hZ p (by simp [hp, ← hlM]) k x 0 (by omega),
          ttVal_concat hM hL p hp k x 0 hx', sum_range_add]
        have z1 : ∀ y ∈ range u', ttVal (List.zipWith addBlock M M') p x (u + y)
            * (ND.concat0 L L').get [u + y, k, 0] = 0 := by
          intro y hy
          rw [h3 p x (u + y) hp (by omega) (by have := mem_range.1 hy; omega), if_pos hx',
            if_neg (by omega), zero_mul]
        rw [sum_eq_zero z1, add_zero]
        congr 1
        refine sum_congr rfl fun y hy => ?_
        have hy' := mem_range.1 hy
        rw [h3 p x y hp (by omega) (by omega), if_pos hx', if_pos hy', ND.concat0_get hL hL',
          if_pos hy']
      · refine sum_congr rfl fun x hx => ?_
        have hx' := mem_range.1 hx
        rw [ND.concat2_get hA hA', if_neg (by omega), Nat.add_sub_cancel_left,
          ttVal_concat h1 hZ p (by simp [hp, ← hlM]) k (t + x) 0 (by omega),
          ttVal_concat hM' hL' p (by omega) k x 0 hx', sum_range_add]
        have z1 : ∀ y ∈ range u, ttVal (List.zipWith addBlock M M') p (t + x) y
            * (ND.concat0 L L').get [y, k, 0] = 0 := by
          intro y hy
          rw [h3 p (t + x) y hp (by omega) (by have := mem_range.1 hy; omega),
            if_neg (by omega), if_pos (mem_range.1 hy), zero_mul]
        rw [sum_eq_zero z1, zero_add]
        congr 1
        refine sum_congr rfl fun y hy => ?_
        have hy' := mem_range.1 hy
        rw [h3 p (t + x) (u + y) hp (by omega) (by omega), if_neg (by omega), if_neg (by omega),
          ND.concat0_get hL hL', if_neg (by omega), Nat.add_sub_cancel_left,
          Nat.add_sub_cancel_left]
    · have hlM : M.length = M'.length := by simpa using hl
      rw [ttEntry, ttEntry, ttEntry, hcores, ttVal_length _ _ _ _ (by simp [← hlM]; omega),
        ttVal_length _ _ _ _ (by simp; omega), ttVal_length _ _ _ _ (by simp [← hlM]; omega), add_zero]

/-! ### zero -/

theorem zero_cores : ∀ (r shape : List ℕ) (a : ℕ), r.length + 1 = shape.length →
    let cs : List (ND K) := List.zipWith (fun a b => ND.zeros [a.1, a.2, b]) ((a :: r).zip shape) (r ++ [1])
    TTChain a cs 1 ∧ cs.map (fun C => C.dim 1) = shape ∧ cs.map (fun C => C.dim 0) = a :: r ∧
    cs ≠ [] ∧ ∀ C ∈ cs, ∀ i, C.get i = 0
  | [], [n], a, _ => by
    refine ⟨⟨n, 1, rfl, rfl⟩, ?_, ?_, ?_, ?_⟩ <;> simp [ND.dim]
  | b :: r, n :: shape, a, h => by
    obtain ⟨h1, h2, h3, h4, h5⟩ := zero_cores r shape b (by simpa using h)
    simp only [List.zip_cons_cons, List.cons_append, List.zipWith_cons_cons]
    refine ⟨⟨n, b, rfl, h1⟩, ?_, ?_, by simp, ?_⟩
    · rw [List.map_cons, h2]; simp [ND.dim]
    · rw [List.map_cons, h3]; simp [ND.dim]
    · intro C hC
      rcases List.mem_cons.1 hC with rfl | hC
      · simp
      · exact h5 C hC
  | [], [], _, h => by simp at h
  | [], _ :: _ :: _, _, h => by simp at h
  | _ :: _, [], _, h => by simp at h

theorem ttVal_zero_core {C : ND K} (hC : ∀ i, C.get i = 0) (Cs : List (ND K)) (i : List ℕ)
    (a b : ℕ) : ttVal (C :: Cs) i a b = 0 := by
  cases i with
  | nil => rfl
  | cons j i => exact sum_eq_zero fun x _ => by rw [hC, zero_mul]

/-! ### sparse: splitting and conversion -/

theorem flatMap_blocks {α : Type*} (l : List α) (b k : ℕ) :
    (List.range k).flatMap (fun i => (l.take ((i + 1) * b)).drop (i * b)) = l.take (k * b) := by
  induction k with
  | zero => simp
  | succ k ih =>
    rw [List.range_succ, List.flatMap_append, ih]
    simp only [List.flatMap_cons, List.flatMap_nil, List.append_nil]
    have : l.take (k * b) = (l.take ((k + 1) * b)).take (k * b) := by
      rw [List.take_take, min_eq_left (Nat.mul_le_mul_right _ (Nat.le_succ k))]
    rw [this, List.take_append_drop]

theorem Sparse.splitList_entries (X : Sparse K) {n : ℕ} (hn : 0 < n) :
    ((X.splitList n).map fun S => S.entries).flatten = X.entries := by
  obtain ⟨m, rfl⟩ : ∃ m, n = m + 1 := ⟨n - 1, by omega⟩
  have e : (X.splitList (m + 1)).map (fun S => S.entries)
      = (List.range m).map (fun i => (X.entries.take ((i + 1) * (X.nnz / (m + 1)))).drop
          (i * (X.nnz / (m + 1)))) ++ [X.entries.drop (m * (X.nnz / (m + 1)))] := by
    rw [Sparse.splitList, List.range_succ, List.map_append, List.map_append]
    congr 1
    · rw [List.map_map]
      refine List.map_congr_left fun i hi => ?_
      have : i < m + 1 - 1 := by simpa using hi
      simp only [Function.comp_apply]
      rw [if_pos this]
    · simp [Sparse.nnz]
  rw [e, List.flatten_append, ← List.flatMap_def, flatMap_blocks]
  simp

theorem allIdx_eq (s : List ℕ) : allIdx s = (List.range s.prod).map (unravel s) := by
  induction s with
  | nil => simp [allIdx]
  | cons n s ih =>
    rw [allIdx, ih, List.prod_cons]
    induction n with
    | zero => simp
    | succ n ihn =>
      rw [List.range_succ, List.flatMap_append, ihn, Nat.succ_mul, List.range_add, List.map_append]
      congr 1
      simp only [List.flatMap_cons, List.flatMap_nil, List.append_nil, List.map_map]
      refine List.map_congr_left fun k hk => ?_
      have hk' : k < s.prod := by simpa using hk
      simp only [Function.comp_apply, unravel_cons]
      rw [mul_comm, Nat.mul_add_div (by omega), Nat.mul_add_mod, Nat.div_eq_of_lt hk',
        Nat.mod_eq_of_lt hk', add_zero]

theorem ND.toSparse_entries (X : ND K) :
    X.toSparse.entries = (allIdx X.shape).map fun i => (i, X.get i) := by
  rw [ND.toSparse, allIdx_eq, List.map_map]
  rw [List.zip_map']
  refine List.map_congr_left fun k hk => ?_
  have hk' : k < X.shape.prod := by simpa using hk
  simp only [Function.comp_apply, Prod.mk.injEq, true_and]
  have := ND.reshape_flat (A := X) (unravel_inR hk')
  rwa [ravel_unravel hk'] at this

/-! ### partial contractions -/

/-- `M` is the left unfolding matrix of the cores. -/
def IsUnfL (Cs : List (ND K)) (M : ND K) : Prop :=
  ∃ r, TTChain 1 Cs r ∧ M.shape = [(coreShape Cs).prod, r] ∧
    ∀ p, InR (coreShape Cs) p → ∀ b, M.get [ravel (coreShape Cs) p, b] = ttVal Cs p 0 b

/-- `M` is the right unfolding matrix of the cores. -/
def IsUnfR (Cs : List (ND K)) (M : ND K) : Prop :=
  ∃ r, TTChain r Cs 1 ∧ M.shape = [r, (coreShape Cs).prod] ∧
    ∀ q, InR (coreShape Cs) q → ∀ a, a < r → M.get [a, ravel (coreShape Cs) q] = ttVal Cs q a 0

/-- loop bodies of `partial_dense` -/
def stepLR (P C : ND K) : ND K :=
  (ND.es_ij_jkl_ikl P C).reshape [(ND.es_ij_jkl_ikl P C).dim 0 * (ND.es_ij_jkl_ikl P C).dim 1,
    (ND.es_ij_jkl_ikl P C).dim 2]
def stepRL (P C : ND K) : ND K :=
  (ND.es_ijk_kl_ijl C P).reshape [(ND.es_ijk_kl_ijl C P).dim 0,
    (ND.es_ijk_kl_ijl C P).dim 1 * (ND.es_ijk_kl_ijl C P).dim 2]

theorem IsUnfL.step {Cs : List (ND K)} {P C : ND K} {r n t : ℕ} (h : IsUnfL Cs P)
    (hr : TTChain 1 Cs r) (hne : Cs ≠ []) (hC : C.shape = [r, n, t]) :
    IsUnfL (Cs ++ [C]) (stepLR P C) := by
  obtain ⟨r', h1, h2, h3⟩ := h
  have hrr : r' = r := TTChain.unique hne h1 hr
  subst hrr
  have hN := ND.es_ij_jkl_ikl_shape h2 hC
  have hcs : coreShape (Cs ++ [C]) = coreShape Cs ++ [n] := by
    simp [coreShape, ND.dim, hC]
  refine ⟨t, hr.append ⟨n, t, hC, rfl⟩, ?_, ?_⟩
  · simp [stepLR, ND.dim, hN, hcs]
  · intro p hp b
    rw [hcs] at hp ⊢
    obtain ⟨p0, l, rfl⟩ : ∃ p0 l, p = p0 ++ [l] := by
      have hl := hp.length
      have : p ≠ [] := by rintro rfl; simp at hl
      exact ⟨p.dropLast, p.getLast this, (List.dropLast_append_getLast this).symm⟩
    have hl0 : p0.length = (coreShape Cs).length := by have := hp.length; simpa using this
    rw [inR_append hl0] at hp
    obtain ⟨hp0, hl⟩ := hp
    have hl' : l < n := hl.1
    have d0 : (ND.es_ij_jkl_ikl P C).dim 0 = (coreShape Cs).prod := by simp [ND.dim, hN]
    have d1 : (ND.es_ij_jkl_ikl P C).dim 1 = n := by simp [ND.dim, hN]
    have d2 : (ND.es_ij_jkl_ikl P C).dim 2 = t := by simp [ND.dim, hN]
    simp only [stepLR, d0, d1, d2]
    rw [ravel_append hl0]
    simp only [List.prod_cons, List.prod_nil, mul_one, ravel_cons, ravel_nil, add_zero]
    rw [ND.reshape_merge12 hN _ _ _ hl', ND.es_ij_jkl_ikl_get h2 hC,
      ttVal_concat h1 hC p0 (by rw [hl0, coreShape_length]) l 0 b (by simp)]
    exact sum_congr rfl fun x _ => by rw [h3 p0 hp0 x]

theorem partialLR_foldl : ∀ (rest done : List (ND K)) (P : ND K) (acc : List (ND K)) (r s : ℕ),
    done ≠ [] → TTChain 1 done r → TTChain r rest s → IsUnfL done P →
    ∃ L, (rest.foldl (fun (st : ND K × List (ND K)) core =>
      (stepLR st.1 core, st.2 ++ [stepLR st.1 core])) (P, acc)).2 = acc ++ L ∧ L.length = rest.length ∧
      ∀ k, (hk : k < L.length) → IsUnfL (done ++ rest.take (k + 1)) L[k]
  | [], _, _, acc, _, _, _, _, _, _ => ⟨[], by simp, rfl, by simp⟩
  | C :: rest, done, P, acc, r, s, hne, hd, ⟨n, t, hC, hrest⟩, hP => by
    have hN := hP.step hd hne hC
    obtain ⟨L, h1, h2, h3⟩ := partialLR_foldl rest (done ++ [C]) _
      (acc ++ [stepLR P C]) t s (by simp) (hd.append ⟨n, t, hC, rfl⟩) hrest hN
    refine ⟨stepLR P C :: L, ?_, by simp [h2], ?_⟩
    · rw [List.foldl_cons]
      exact h1.trans (by simp only [List.append_assoc, List.singleton_append])
    · intro k hk
      cases k with
      | zero => simpa using hN
      | succ k =>
        have := h3 k (by simpa using hk)
        simpa using this

theorem IsUnfR.step {Cs : List (ND K)} {P C : ND K} {r n t : ℕ} (h : IsUnfR Cs P)
    (hr : TTChain t Cs 1) (hne : Cs ≠ []) (hC : C.shape = [r, n, t]) :
    IsUnfR (C :: Cs) (stepRL P C) := by
  obtain ⟨r', h1, h2, h3⟩ := h
  have hrr : r' = t := by
    cases Cs with
    | nil => exact absurd rfl hne
    | cons D Ds =>
      obtain ⟨n1, t1, e1, _⟩ := h1
      obtain ⟨n2, t2, e2, _⟩ := hr
      rw [e1] at e2; simp at e2; exact e2.1
  subst hrr
  have hN := ND.es_ijk_kl_ijl_shape hC h2
  have hcs : coreShape (C :: Cs) = n :: coreShape Cs := by
    simp [coreShape, ND.dim, hC]
  refine ⟨r, ⟨n, r', hC, hr⟩, ?_, ?_⟩
  · simp [stepRL, ND.dim, hN, hcs]
  · intro q hq a ha
    rw [hcs] at hq ⊢
    match q, hq with
    | l :: q, hq =>
      have d0 : (ND.es_ijk_kl_ijl C P).dim 0 = r := by simp [ND.dim, hN]
      have d1 : (ND.es_ijk_kl_ijl C P).dim 1 = n := by simp [ND.dim, hN]
      have d2 : (ND.es_ijk_kl_ijl C P).dim 2 = (coreShape Cs).prod := by simp [ND.dim, hN]
      simp only [stepRL, d0, d1, d2, ravel_cons]
      rw [ND.reshape_merge23 hN _ _ _ (ravel_lt hq.2), ND.es_ijk_kl_ijl_get hC h2, ttVal_cons hC]
      exact sum_congr rfl fun x hx => by rw [h3 q hq.2 x (mem_range.1 hx)]

theorem partialRL_foldl : ∀ (rest done : List (ND K)) (P : ND K) (acc : List (ND K)) (r s : ℕ),
    done ≠ [] → TTChain r done 1 → TTChain s rest.reverse r → IsUnfR done P →
    ∃ L, (rest.foldl (fun (st : ND K × List (ND K)) core =>
      (stepRL st.1 core, st.2 ++ [stepRL st.1 core])) (P, acc)).2 = acc ++ L ∧ L.length = rest.length ∧
      ∀ k, (hk : k < L.length) → IsUnfR ((rest.take (k + 1)).reverse ++ done) L[k]
  | [], _, _, acc, _, _, _, _, _, _ => ⟨[], by simp, rfl, by simp⟩
  | C :: rest, done, P, acc, r, s, hne, hd, hrest, hP => by
    rw [List.reverse_cons] at hrest
    obtain ⟨u, h0, n, t, hC, ht⟩ := hrest.split
    cases ht
    have hN := hP.step hd hne hC
    obtain ⟨L, h1, h2, h3⟩ := partialRL_foldl rest (C :: done) _
      (acc ++ [stepRL P C]) u s (by simp) ⟨n, r, hC, hd⟩ h0 hN
    refine ⟨stepRL P C :: L, ?_, by simp [h2], ?_⟩
    · rw [List.foldl_cons]
      exact h1.trans (by simp only [List.append_assoc, List.singleton_append])
    · intro k hk
      cases k with
      | zero => simpa using hN
      | succ k =>
        have := h3 k (by simpa using hk)
        simpa using this

end

end TTS
