import Verif.Proofs.Lossless
import Verif.Props.Ranks
import Verif.Props.Tensor

/-!
# C04: trimming ranks is lossless
-/

namespace TTS.Props

open Finset TTS.Spec

variable {K : Type*} [CommSemiring K]

theorem ttVal_zero_bond : ∀ (Cs : List (ND K)) (r s : ℕ), TTChain r Cs s → ∀ k < Cs.length, bnd Cs s k = 0 →
    ∀ p x y, ttVal Cs p x y = 0
  | [], _, _, _, k, hk, _, _, _, _ => by simp at hk
  | C :: Cs, r, s, ⟨n, t, hC, hCs⟩, k, hk, hb, p, x, y => by
    match p with
    | [] => rfl
    | i :: p =>
      rw [ttVal_cons hC]
      cases k with
      | zero =>
        rw [bnd_zero, (dim_of_shape3 hC).1] at hb
        exact sum_eq_zero fun z _ => by rw [ND.oob3 hC (by omega), zero_mul]
      | succ k =>
        exact sum_eq_zero fun z _ => by
          rw [ttVal_zero_bond Cs t s hCs k (by simpa using hk) hb p z y, mul_zero]

/-- The bonds of a valid train. -/
theorem bonds_rank {X : TT K} (h : X.Valid) : bonds X.rank = X.cores.map (fun C => C.dim 0) ++ [1] := by
  obtain ⟨cores⟩ := X
  obtain ⟨hne, hch⟩ := h
  match cores, hne, hch with
  | C :: Cs, _, ⟨n, t, hC, _⟩ =>
    show 1 :: (Cs.map (fun C => C.dim 0) ++ [1]) = _
    rw [List.map_cons, (dim_of_shape3 hC).1]; rfl

theorem bonds_inj {r s : List ℕ} (h : bonds r = bonds s) : r = s := by
  simpa [bonds] using h

theorem rank_length {X : TT K} (h : X.Valid) : X.rank.length + 1 = X.shape.length := by
  have : 0 < X.cores.length := List.length_pos_iff.2 h.1
  simp [TT.rank, TT.shape]; omega

/-- Every tensor train with positive sizes and ranks has an equal one whose ranks are consistent and not larger. -/
theorem exists_consistent {Y : TT K} (hY : Y.Valid) (hn : ∀ n ∈ Y.shape, 0 < n) (hr : ∀ r ∈ Y.rank, 0 < r) :
    ∃ Z : TT K, Z.Valid ∧ Z.shape = Y.shape ∧ Z.toNumpy = Y.toNumpy ∧ ConsistentRanks Y.shape Z.rank ∧
      RanksLe Z.rank Y.rank := by
  obtain ⟨cores⟩ := Y
  obtain ⟨hne, hch⟩ := id hY
  match cores, hne, hch with
  | C :: Cs, _, ⟨n, t, hC, hCs⟩ =>
  obtain ⟨As, a1, a2, a3, a4, a5⟩ := leftReduce Cs C 1 n t 1 hC hCs
  have hAne : As ≠ [] := by intro h; rw [h] at a3; simp at a3
  obtain ⟨A, As', rfl⟩ : ∃ A As', As = A :: As' := List.exists_cons_of_ne_nil hAne
  -- the bonds after the first reduction, and the reduction of all cores but the first
  obtain ⟨m, u, hA, hAs⟩ := id a1
  have key : ∃ Z : TT K, Z.Valid ∧ Z.shape = coreShape (A :: As') ∧
      (∀ p, ttVal Z.cores p 0 0 = ttVal (A :: As') p 0 0) ∧ Z.cores.length = (A :: As').length ∧
      (bnd Z.cores 1 0 = 1) ∧
      ∀ k < As'.length, bnd Z.cores 1 (k + 1)
        = min (bnd (A :: As') 1 (k + 1)) ((coreShape (A :: As')).getD (k + 1) 0 * bnd Z.cores 1 (k + 2)) := by
    by_cases he : As' = []
    · subst he
      exact ⟨⟨[A]⟩, ⟨by simp, a1⟩, rfl, fun _ => rfl, rfl, bnd_chain a1, fun k hk => by simp at hk⟩
    · obtain ⟨Os, R, o1, o2, o3, o4, o5, o6⟩ := rightReduce As' u 1 hAs he
      have hA' : (ND.es_ijk_kl_ijl A R).shape = [1, m, bnd Os 1 0] := ND.es_ijk_kl_ijl_shape hA o2
      have hch : TTChain 1 (ND.es_ijk_kl_ijl A R :: Os) 1 := ⟨m, _, hA', o1⟩
      refine ⟨⟨ND.es_ijk_kl_ijl A R :: Os⟩, ⟨by simp, hch⟩, ?_, ?_, by simp [o4], bnd_chain hch, ?_⟩
      · show (ND.es_ijk_kl_ijl A R).dim 1 :: coreShape Os = A.dim 1 :: coreShape As'
        rw [o3, (dim_of_shape3 hA').2.1, (dim_of_shape3 hA).2.1]
      · intro p
        match p with
        | [] => rfl
        | i :: p =>
          show ttVal (ND.es_ijk_kl_ijl A R :: Os) (i :: p) 0 0 = _
          rw [ttVal_cons hA', ttVal_cons hA]
          have e1 : ∀ z ∈ range (bnd Os 1 0), (ND.es_ijk_kl_ijl A R).get [0, i, z] * ttVal Os p z 0
              = ∑ x ∈ range u, A.get [0, i, x] * (R.get [x, z] * ttVal Os p z 0) := by
            intro z _
            rw [ND.es_ijk_kl_ijl_get hA o2, sum_mul]
            exact sum_congr rfl fun x _ => by ring
          rw [sum_congr rfl e1, sum_comm]
          refine sum_congr rfl fun x hx => ?_
          rw [o5 p x (by simpa using hx) 0 one_pos, mul_sum]
      · intro k hk
        have := o6 k hk
        rw [bnd_succ, this, bnd_succ, bnd_succ]; rfl
  obtain ⟨Z, z1, z2, z3, z4, z5, z6⟩ := key
  have hsh : Z.shape = (TT.mk (C :: Cs)).shape := z2.trans a2
  have hZl : Z.cores.length = Cs.length + 1 := by rw [z4, a3]
  have hAl : As'.length = Cs.length := by simpa using a3
  have hsl : (TT.mk (C :: Cs)).shape.length = Cs.length + 1 := by simp [TT.shape]
  have ge : ∀ (X : TT K), X.Valid → ∀ k, (bonds X.rank).getD k 0 = bnd X.cores 1 k := by
    intro X hX k; rw [bonds_rank hX]; rfl
  have bl : ∀ (L : List (ND K)) k, k = L.length → bnd L 1 k = 1 := by
    rintro L _ rfl
    unfold bnd
    rw [List.getD_append_right _ _ _ _ (by simp)]; simp
  -- shorthand for sizes and bonds
  obtain ⟨N, hN⟩ : ∃ N : ℕ → ℕ, N = fun k => (coreShape (C :: Cs)).getD k 0 := ⟨_, rfl⟩
  have hNp : ∀ k ≤ Cs.length, 0 < N k := by
    intro k hk
    rw [hN]
    have hk' : k < (coreShape (C :: Cs)).length := by rw [coreShape_length]; simp; omega
    show 0 < (coreShape (C :: Cs)).getD k 0
    rw [List.getD_eq_getElem _ _ hk']
    exact hn _ (List.getElem_mem hk')
  have hb : ∀ k ≤ Cs.length + 1, 0 < bnd (C :: Cs) 1 k := by
    intro k hk
    match k with
    | 0 => rw [bnd_zero, (dim_of_shape3 hC).1]; exact one_pos
    | k + 1 =>
      by_cases h : k < Cs.length
      · have hk' : k < (TT.mk (C :: Cs)).rank.length := by simpa [TT.rank] using h
        have : bnd (C :: Cs) 1 (k + 1) = (TT.mk (C :: Cs)).rank.getD k 0 := by
          rw [bnd_succ]
          show (Cs.map _ ++ [1]).getD k 0 = (Cs.map _).getD k 0
          rw [List.getD_append _ _ _ _ (by simpa using h)]
        rw [this, List.getD_eq_getElem _ _ hk']
        exact hr _ (List.getElem_mem hk')
      · rw [bl _ (k + 1) (by simp; omega)]; exact one_pos
  obtain ⟨α, hα⟩ : ∃ α : ℕ → ℕ, α = bnd (A :: As') 1 := ⟨_, rfl⟩
  obtain ⟨ζ, hζ⟩ : ∃ ζ : ℕ → ℕ, ζ = bnd Z.cores 1 := ⟨_, rfl⟩
  have α0 : α 0 = 1 := by rw [hα]; exact bnd_chain a1
  have αS : ∀ k < Cs.length, α (k + 1) = min (α k * N k) (bnd (C :: Cs) 1 (k + 1)) := by
    intro k hk; rw [hα, hN]; exact a5 k hk
  have αl : α (Cs.length + 1) = 1 := by rw [hα]; exact bl _ _ (by simp [hAl])
  have αp : ∀ k ≤ Cs.length, 0 < α k := by
    intro k
    induction k with
    | zero => intro _; rw [α0]; exact one_pos
    | succ k ih =>
      intro hk
      rw [αS k hk]
      exact lt_min (Nat.mul_pos (ih (by omega)) (hNp k (by omega))) (hb _ (by omega))
  have αle : ∀ k ≤ Cs.length, α (k + 1) ≤ α k * N k := by
    intro k hk
    rcases Nat.lt_or_ge k Cs.length with h | h
    · rw [αS k h]; exact min_le_left _ _
    · have : k = Cs.length := by omega
      subst this
      rw [αl]; exact Nat.mul_pos (αp _ le_rfl) (hNp _ le_rfl)
  have ζ0 : ζ 0 = 1 := by rw [hζ]; exact z5
  have ζl : ζ (Cs.length + 1) = 1 := by rw [hζ]; exact bl _ _ (by rw [hZl])
  have ζS : ∀ k < Cs.length, ζ (k + 1) = min (α (k + 1)) (N (k + 1) * ζ (k + 2)) := by
    intro k hk
    have := z6 k (by omega)
    rw [a2] at this
    rw [hζ, hα, hN]; exact this
  have ζp : ∀ j k, k + j = Cs.length → 0 < ζ (k + 1) := by
    intro j
    induction j with
    | zero => intro k hk; have : k = Cs.length := by omega
              rw [this, ζl]; exact one_pos
    | succ j ih =>
      intro k hk
      rw [ζS k (by omega)]
      exact lt_min (αp _ (by omega)) (Nat.mul_pos (hNp _ (by omega)) (ih (k + 1) (by omega)))
  have ζα : ∀ k ≤ Cs.length + 1, ζ k ≤ α k := by
    intro k hk
    match k with
    | 0 => rw [ζ0, α0]
    | k + 1 =>
      rcases Nat.lt_or_ge k Cs.length with h | h
      · rw [ζS k h]; exact min_le_left _ _
      · have : k = Cs.length := by omega
        rw [this, ζl, αl]
  have hZs := TT.toNumpy_shape z1
  have hYv : (TT.mk (C :: Cs)).Valid := hY
  refine ⟨Z, z1, hsh, ?_, ⟨?_, ?_⟩, ?_, ?_⟩
  · refine ND.ext' (by rw [hZs, TT.toNumpy_shape hYv, hsh]) fun i _ => ?_
    rw [TT.toNumpy_get z1, TT.toNumpy_get hYv]
    show ttVal Z.cores i 0 0 = ttVal (C :: Cs) i 0 0
    rw [z3, a4 i 0 one_pos 0 one_pos]
  · rw [← hsh]; exact rank_length z1
  · intro k hk
    rw [hsl] at hk
    rw [ge Z z1, ge Z z1, ← hζ]
    rw [show (TT.mk (C :: Cs)).shape.getD k 0 = N k by rw [hN]; rfl]
    -- the bond before mode `k` is at most `N k * ζ (k+1)`
    have hback : ζ k ≤ N k * ζ (k + 1) := by
      match k with
      | 0 =>
        rw [ζ0]
        exact Nat.mul_pos (hNp 0 (by omega)) (ζp Cs.length 0 (by omega))
      | k + 1 => rw [ζS k (by omega)]; exact min_le_right _ _
    refine ⟨?_, hback⟩
    have hfor : ζ k = α k ∨ ζ k = N k * ζ (k + 1) := by
      match k with
      | 0 => left; rw [ζ0, α0]
      | k + 1 =>
        rw [ζS k (by omega)]
        rcases le_total (α (k + 1)) (N (k + 1) * ζ (k + 2)) with h | h
        · left; exact min_eq_left h
        · right; exact min_eq_right h
    rcases hfor with h | h
    · rw [h]; exact (ζα (k + 1) (by omega)).trans (αle k (by omega))
    · rw [h]
      have := hNp k (by omega)
      calc ζ (k + 1) = 1 * ζ (k + 1) * 1 := by ring
        _ ≤ N k * ζ (k + 1) * N k := Nat.mul_le_mul (Nat.mul_le_mul_right _ this) this
  · have h1 := rank_length z1
    have h2 := rank_length hYv
    rw [hsh] at h1; omega
  · intro k hk
    have h1 := rank_length z1
    rw [hsh, hsl] at h1
    have hk' : k < Cs.length := by omega
    have e : ∀ X : TT K, X.Valid → X.rank.length = Cs.length → X.rank.getD k 0 = bnd X.cores 1 (k + 1) := by
      intro X hX hl
      rw [← ge X hX]
      unfold bonds
      rw [List.getD_cons_succ, List.getD_append _ _ _ _ (by omega)]
    rw [e Z z1 (by omega), e _ hYv (by simp [TT.rank]), ← hζ]
    refine (ζα (k + 1) (by omega)).trans ?_
    rw [αS k hk']; exact min_le_right _ _

/-- **C04.** Every tensor given by a tensor train whose ranks are at most the requested ones `rs` is given exactly by a
tensor train with the trimmed ranks `trim_ranks(shape, rs)`, over every commutative semiring of scalars. -/
theorem C04 (Y : TT K) (hY : Y.Valid) (rs : List ℕ) (hle : RanksLe Y.rank rs) :
    ∃ Z : TT K, Z.Valid ∧ Z.shape = Y.shape ∧ Z.rank = trimRanks Y.shape rs ∧ Z.toNumpy = Y.toNumpy := by
  have hrl := rank_length hY
  have hrs : rs.length + 1 = Y.shape.length := by rw [← hle.1, hrl]
  have htl := trimRanks_length Y.shape rs hrs
  by_cases hpos : (∀ n ∈ Y.shape, 0 < n) ∧ ∀ r ∈ Y.rank, 0 < r
  · obtain ⟨Z, z1, z2, z3, z4, z5⟩ := exists_consistent hY hpos.1 hpos.2
    have hle' : RanksLe Z.rank rs := ⟨z5.1.trans hle.1, fun i hi => (z5.2 i hi).trans (hle.2 i (by rw [← z5.1]; exact hi))⟩
    have hg := C03_greatest Y.shape rs Z.rank hrs z4 hle'
    have hcl : Z.cores.length = Y.shape.length := by rw [← z2]; simp [TT.shape]
    obtain ⟨p1, p2, p3, p4⟩ := zeroPad_spec Z.cores (bonds (trimRanks Y.shape rs)) 1 1 z1.2
      (by simp only [bonds, List.length_cons, List.length_append, List.length_nil]; omega) (by
        intro k hk
        have : bnd Z.cores 1 k = (bonds Z.rank).getD k 0 := by rw [bonds_rank z1]; rfl
        rw [this]
        unfold bonds
        match k with
        | 0 => rfl
        | k + 1 =>
          rw [List.getD_cons_succ, List.getD_cons_succ]
          by_cases h : k < Z.rank.length
          · rw [List.getD_append _ _ _ _ h, List.getD_append _ _ _ _ (by rw [← hg.1]; exact h)]
            exact hg.2 k h
          · rw [List.getD_append_right _ _ _ _ (by omega), List.getD_append_right _ _ _ _ (by rw [← hg.1]; omega),
              hg.1])
    have hlast : (bonds (trimRanks Y.shape rs)).getLastD 0 = 1 := by simp [bonds, List.getLastD]
    rw [hlast] at p1 p3
    have hne : zeroPad Z.cores (bonds (trimRanks Y.shape rs)) ≠ [] := by
      intro h
      have h2 := congrArg List.length p2
      rw [coreShape_length, coreShape_length, h] at h2
      have := List.length_pos_iff.2 z1.1
      simp at h2; omega
    have hv : (TT.mk (zeroPad Z.cores (bonds (trimRanks Y.shape rs)))).Valid := ⟨hne, p1⟩
    refine ⟨⟨zeroPad Z.cores (bonds (trimRanks Y.shape rs))⟩, hv, p2.trans z2, ?_, ?_⟩
    · apply bonds_inj
      rw [bonds_rank hv]; exact p3
    · rw [← z3]
      refine ND.ext' ?_ fun i _ => ?_
      · rw [TT.toNumpy_shape hv, TT.toNumpy_shape z1]; exact p2
      · rw [TT.toNumpy_get hv, TT.toNumpy_get z1]
        exact p4 i 0 one_pos 0 one_pos
  · obtain ⟨Z, -, z1, z2, z3, z4⟩ := C60_tt (K := K) Y.shape (.seq (trimRanks Y.shape rs)) (trimRanks Y.shape rs)
      (by simp [processTTRank, htl, hrs])
    refine ⟨Z, z1, z2, z3, ND.ext' (by rw [TT.toNumpy_shape z1, TT.toNumpy_shape hY, z2]) fun i hi => ?_⟩
    rw [z4, TT.toNumpy_get hY]
    symm
    by_cases hn : ∀ n ∈ Y.shape, 0 < n
    · have hr : ∃ r ∈ Y.rank, r = 0 := by
        by_contra h
        push Not at h
        exact hpos ⟨hn, fun r hr => Nat.pos_of_ne_zero (h r hr)⟩
      obtain ⟨_, hr, rfl⟩ := hr
      obtain ⟨k, hk, hk0⟩ := List.mem_iff_getElem.1 hr
      have hl : Y.shape.length = Y.cores.length := by simp [TT.shape]
      refine ttVal_zero_bond Y.cores 1 1 hY.2 (k + 1) (by omega) ?_ i 0 0
      have : bnd Y.cores 1 (k + 1) = (bonds Y.rank).getD (k + 1) 0 := by rw [bonds_rank hY]; rfl
      rw [this]
      unfold bonds
      rw [List.getD_cons_succ, List.getD_append _ _ _ _ hk, List.getD_eq_getElem _ _ hk, hk0]
    · exfalso
      apply hn
      intro n hn'
      rw [TT.toNumpy_shape z1, z2] at hi
      refine Nat.pos_of_ne_zero ?_
      rintro rfl
      have := hi.prod_pos
      rw [List.prod_eq_zero hn'] at this
      exact absurd this (lt_irrefl 0)

/-- In particular a tensor train is equal to one with its own ranks trimmed. -/
theorem C04_self (Y : TT K) (hY : Y.Valid) :
    ∃ Z : TT K, Z.Valid ∧ Z.shape = Y.shape ∧ Z.rank = trimRanks Y.shape Y.rank ∧ Z.toNumpy = Y.toNumpy :=
  C04 Y hY Y.rank ⟨rfl, fun _ _ => le_rfl⟩

/-- a `2 × 2 × 2` train of rank `(5, 4)`, whose ranks are trimmed to `(2, 2)` -/
def x10 : TT ℤ := ⟨[ND.ofFn [1, 2, 5] fun i => i.getD 1 0 + i.getD 2 0, ND.ofFn [5, 2, 4] fun i => i.getD 0 0 - i.getD 2 0,
  ND.ofFn [4, 2, 1] fun i => i.getD 0 0 + i.getD 1 0]⟩

example : x10.Valid ∧ RanksLe x10.rank [5, 4] ∧ trimRanks x10.shape [5, 4] = [2, 2] :=
  ⟨⟨by simp [x10], 2, 5, rfl, 2, 4, rfl, 2, 1, rfl, rfl⟩,
    ⟨rfl, fun i hi => le_of_eq rfl⟩, by decide +kernel⟩

end TTS.Props
