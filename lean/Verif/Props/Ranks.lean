import Verif.Proofs.Ranks
import Verif.Spec.Ranks

/-!
# C01-C03: rank arguments and rank trimming (`tt_sketch/utils.py` 121-175)
-/

namespace TTS.Props

open TTS TTS.Spec

/-! ## C01 rank arguments are normalised or rejected -/

/-- C01: an integer rank means that rank on each of the `d-1` bonds (before trimming). -/
theorem C01_int (r : ℕ) (shape : List ℕ) (h : shape ≠ []) :
    processTTRank (.int r) shape false = .ok (List.replicate (shape.length - 1) r) ∧
    processTTRank (.int r) shape true
      = .ok (trimRanks shape (List.replicate (shape.length - 1) r)) := by
  have : shape.length - 1 + 1 = shape.length := Nat.sub_add_cancel (List.length_pos_iff.2 h)
  simp [processTTRank, this]

/-- C01: a sequence is accepted iff it has `d-1` entries; then it is unchanged before trimming. -/
theorem C01_seq (rs shape : List ℕ) :
    (rs.length + 1 = shape.length →
      processTTRank (.seq rs) shape false = .ok rs ∧
      processTTRank (.seq rs) shape true = .ok (trimRanks shape rs)) ∧
    (rs.length + 1 ≠ shape.length →
      ∀ trim, processTTRank (.seq rs) shape trim = .error .valueError) := by
  constructor
  · intro h; simp [processTTRank, h]
  · intro h trim; simp [processTTRank, h]

theorem prod_pos' {l : List ℕ} (h : ∀ a ∈ l, 0 < a) : 0 < l.prod := by
  induction l with
  | nil => simp
  | cons a l ih =>
    rw [List.prod_cons]
    exact Nat.mul_pos (h a (by simp)) (ih fun b hb => h b (by simp [hb]))

theorem trimRanks_length (dims rs : List ℕ) (h : rs.length + 1 = dims.length) :
    (trimRanks dims rs).length = rs.length := by
  have hl : (1 :: trimInit dims rs ++ [1]).length = dims.length + 1 := by
    simp [trimInit]; omega
  have := (Trim.iterate_spec dims 100 _ hl).1
  unfold trimRanks
  simp only
  rw [Trim.loop_iterate dims 100 _ hl]
  simp only [List.length_dropLast, List.length_drop]
  rw [this]; simp [trimInit]

/-- C01: whatever is accepted has `d-1` entries, trimmed or not; the only error is `ValueError`. -/
theorem C01_length (rank : RankArg) (shape : List ℕ) (trim : Bool) :
    (∃ out, processTTRank rank shape trim = .ok out ∧ out.length + 1 = shape.length) ∨
    processTTRank rank shape trim = .error .valueError := by
  obtain ⟨rt, hrt⟩ : ∃ rt, processTTRank rank shape trim =
      if rt.length + 1 ≠ shape.length then .error .valueError
      else if trim then .ok (trimRanks shape rt) else .ok rt := by
    cases rank <;> exact ⟨_, rfl⟩
  rw [hrt]
  by_cases h : rt.length + 1 ≠ shape.length
  · right; simp [h]
  · have h' : rt.length + 1 = shape.length := by omega
    left
    cases trim
    · exact ⟨rt, by simp [h'], h'⟩
    · exact ⟨trimRanks shape rt, by simp [h'], by rw [trimRanks_length _ _ h', h']⟩

example : processTTRank (.int 4) [5, 6, 7] false = .ok [4, 4] := by rfl
example : processTTRank (.seq [4, 9]) [5, 6, 7] true = .ok [4, 7] := by decide +kernel
example : processTTRank (.seq [4]) [5, 6, 7] true = .error .valueError := by rfl

/-! ## C02 trimming only lowers ranks and respects the unfolding bounds -/

section
variable (dims rs : List ℕ) (h : rs.length + 1 = dims.length)
include h

/-- entries of the trimmed tuple as iterated sweeps -/
theorem trimRanks_getD (i : ℕ) (hi : i < rs.length) :
    (trimRanks dims rs).getD i 0 =
      ((fun f => Trim.sweepF (Trim.fn dims) f dims.length)^[100]
        (Trim.fn (1 :: trimInit dims rs ++ [1]))) (i + 1) := by
  have hl : (1 :: trimInit dims rs ++ [1]).length = dims.length + 1 := by
    simp [trimInit]; omega
  obtain ⟨h1, h2⟩ := Trim.iterate_spec dims 100 _ hl
  rw [← h2]
  unfold trimRanks
  simp only
  rw [Trim.loop_iterate dims 100 _ hl]
  have h3 : rs.length + 2 = ((fun l => (trimSweep dims l).1)^[100]
      (1 :: trimInit dims rs ++ [1])).length := by rw [h1]; simp [trimInit]
  unfold Trim.fn
  rw [List.getD_eq_getElem?_getD, List.getD_eq_getElem?_getD, List.getElem?_dropLast,
    if_pos (by rw [List.length_drop]; omega), List.getElem?_drop, add_comm 1 i]

omit h in
theorem trimInit_getD (i : ℕ) (hi : i < rs.length) :
    Trim.fn (1 :: trimInit dims rs ++ [1]) (i + 1) =
      min (rs.getD i 0) (min (dims.take (i + 1)).prod (dims.drop (i + 1)).prod) := by
  simp [Trim.fn, trimInit, List.getD_eq_getElem?_getD, List.getElem?_append, hi]

/-- C02. -/
theorem C02 (i : ℕ) (hi : i < rs.length) :
    (trimRanks dims rs).length = rs.length ∧
    (trimRanks dims rs).getD i 0 ≤ rs.getD i 0 ∧
    (trimRanks dims rs).getD i 0 ≤ (dims.take (i + 1)).prod ∧
    (trimRanks dims rs).getD i 0 ≤ (dims.drop (i + 1)).prod := by
  have h1 := Trim.iterate_le (Trim.fn dims) dims.length 100
    (Trim.fn (1 :: trimInit dims rs ++ [1])) (i + 1)
  rw [← trimRanks_getD dims rs h i hi, trimInit_getD dims rs i hi] at h1
  exact ⟨trimRanks_length dims rs h, h1.trans (min_le_left _ _),
    h1.trans ((min_le_right _ _).trans (min_le_left _ _)),
    h1.trans ((min_le_right _ _).trans (min_le_right _ _))⟩

end

example : trimRanks [2, 3, 4, 5] [9, 9, 9] = [2, 6, 5] := by decide +kernel

/-! ## C03 trimmed ranks are consistent -/

/-- the padded trimmed tuple, at every bond -/
theorem bonds_trim (dims rs : List ℕ) (h : rs.length + 1 = dims.length)
    (hd : ∀ n ∈ dims, 0 < n) (hr : ∀ r ∈ rs, 0 < r) (i : ℕ) (hi : i ≤ dims.length) :
    (bonds (trimRanks dims rs)).getD i 0 =
      ((fun f => Trim.sweepF (Trim.fn dims) f dims.length)^[100]
        (Trim.fn (1 :: trimInit dims rs ++ [1]))) i := by
  have hlen := trimRanks_length dims rs h
  have hbig : ∀ i, (i = 0 ∨ i = dims.length) → (Trim.fn (1 :: trimInit dims rs ++ [1])) i = 1 := by
    rintro i (rfl | rfl)
    · rfl
    · simp [Trim.fn, trimInit, List.getD_eq_getElem?_getD, ← h]
  have hpos : ∀ i ≤ dims.length, 0 < Trim.fn (1 :: trimInit dims rs ++ [1]) i := by
    intro i hi
    match i with
    | 0 => rw [hbig 0 (.inl rfl)]; exact one_pos
    | i + 1 =>
      by_cases hi' : i < rs.length
      · rw [trimInit_getD dims rs i hi']
        refine lt_min ?_ (lt_min ?_ ?_)
        · rw [List.getD_eq_getElem _ _ hi']; exact hr _ (List.getElem_mem _)
        · exact prod_pos' fun a ha => hd a (List.mem_of_mem_take ha)
        · exact prod_pos' fun a ha => hd a (List.mem_of_mem_drop ha)
      · rw [hbig (i + 1) (.inr (by omega))]; exact one_pos
  have hdp : ∀ i < dims.length, 0 < Trim.fn dims i := by
    intro i hi
    unfold Trim.fn
    rw [List.getD_eq_getElem _ _ hi]; exact hd _ (List.getElem_mem _)
  have hone : ∀ i, (i = 0 ∨ i = dims.length) →
      ((fun f => Trim.sweepF (Trim.fn dims) f dims.length)^[100]
        (Trim.fn (1 :: trimInit dims rs ++ [1]))) i = 1 := by
    intro i hi
    have h1 := Trim.iterate_le (Trim.fn dims) dims.length 100
      (Trim.fn (1 :: trimInit dims rs ++ [1])) i
    rw [hbig i hi] at h1
    have h2 := Trim.iterate_pos (Trim.fn dims) (Trim.fn (1 :: trimInit dims rs ++ [1]))
      dims.length 100 hpos hdp i (by rcases hi with rfl | rfl <;> omega)
    omega
  match i with
  | 0 => rw [hone 0 (.inl rfl)]; rfl
  | i + 1 =>
    by_cases hi' : i < rs.length
    · rw [← trimRanks_getD dims rs h i hi']
      unfold bonds
      rw [List.getD_cons_succ, List.getD_append _ _ _ _ (by omega)]
    · rw [hone (i + 1) (.inr (by omega))]
      have : i = (trimRanks dims rs).length := by omega
      subst this
      simp [bonds, List.getD_eq_getElem?_getD]

/-- C03 (greatest): every consistent tuple below the request is below the trimmed tuple, so
trimming never removes more than consistency forces.  No bound on the number of modes. -/
theorem C03_greatest (dims rs cs : List ℕ) (h : rs.length + 1 = dims.length)
    (hc : ConsistentRanks dims cs) (hle : RanksLe cs rs) :
    RanksLe cs (trimRanks dims rs) := by
  obtain ⟨hcl, hcc⟩ := hc
  obtain ⟨hl, hle⟩ := hle
  refine ⟨by rw [trimRanks_length _ _ h, hl], fun i hi => ?_⟩
  -- a consistent tuple respects the unfolding bounds
  have hleft : ∀ i ≤ dims.length, (bonds cs).getD i 0 ≤ (dims.take i).prod := by
    intro i
    induction i with
    | zero => intro _; simp [bonds]
    | succ i ih =>
      intro hi
      have hi' : i < dims.length := hi
      rw [List.take_add_one, List.prod_append]
      refine (hcc i hi).1.trans ?_
      rw [List.getElem?_eq_getElem hi', List.getD_eq_getElem _ _ hi']
      simpa using Nat.mul_le_mul_right _ (ih (by omega))
  have hright : ∀ k ≤ dims.length,
      (bonds cs).getD (dims.length - k) 0 ≤ (dims.drop (dims.length - k)).prod := by
    intro k
    induction k with
    | zero =>
      intro _
      rw [Nat.sub_zero, List.drop_of_length_le le_rfl, ← hcl]
      simp [bonds, List.getD_eq_getElem?_getD]
    | succ k ih =>
      intro hk
      have hi : dims.length - (k + 1) < dims.length := by omega
      have e : dims.length - (k + 1) + 1 = dims.length - k := by omega
      rw [List.drop_eq_getElem_cons hi, List.prod_cons, e]
      refine (hcc _ hi).2.trans ?_
      rw [List.getD_eq_getElem _ _ hi, e]
      exact Nat.mul_le_mul_left _ (ih (by omega))
  have hge := Trim.iterate_ge (Trim.fn dims) (Trim.fn (1 :: trimInit dims rs ++ [1]))
    (fun i => (bonds cs).getD i 0) dims.length 100 ?_ (fun i hi => (hcc i hi).1)
    (fun i hi => (hcc i hi).2) (i + 1) (by omega)
  · rw [← trimRanks_getD dims rs h i (by omega)] at hge
    refine le_trans ?_ hge
    unfold bonds
    rw [List.getD_cons_succ, List.getD_append _ _ _ _ hi]
  · intro j hj
    match j with
    | 0 => simp [bonds, Trim.fn]
    | j + 1 =>
      by_cases hj' : j < rs.length
      · rw [trimInit_getD dims rs j hj']
        refine le_min ?_ (le_min (hleft _ (by omega)) ?_)
        · refine le_trans ?_ (hle j (by omega))
          unfold bonds
          rw [List.getD_cons_succ, List.getD_append _ _ _ _ (by omega)]
        · have := hright (dims.length - (j + 1)) (by omega)
          rwa [show dims.length - (dims.length - (j + 1)) = j + 1 by omega] at this
      · have : j = cs.length := by omega
        subst this
        have e : cs.length = (trimInit dims rs).length := by simp [trimInit, hl]
        simp [bonds, Trim.fn, List.getD_eq_getElem?_getD]
        rw [e]; simp

/-- C03, left half of consistency, for any number of modes: every trimmed rank is at most the previous one times the
mode size.  This half, the one that left-to-right orthogonalisation needs, survives the code giving up after 100 sweeps;
only the right half can fail (`C03_counterexample`). -/
theorem C03_left (dims rs : List ℕ) (h : rs.length + 1 = dims.length)
    (hd : ∀ n ∈ dims, 0 < n) (hr : ∀ r ∈ rs, 0 < r) (i : ℕ) (hi : i < dims.length) :
    (bonds (trimRanks dims rs)).getD (i + 1) 0 ≤ (bonds (trimRanks dims rs)).getD i 0 * dims.getD i 0 := by
  rw [bonds_trim dims rs h hd hr i (by omega), bonds_trim dims rs h hd hr (i + 1) (by omega)]
  have := Trim.sweepF_left (Trim.fn dims) ((fun f => Trim.sweepF (Trim.fn dims) f
    dims.length)^[99] (Trim.fn (1 :: trimInit dims rs ++ [1]))) dims.length i hi
  rw [← Function.iterate_succ_apply' (fun f => Trim.sweepF (Trim.fn dims) f dims.length)] at this
  exact this

/-- C03, consistency, for at most 102 modes (the code gives up after 100 sweeps,
see `C03_counterexample`); positive mode sizes and ranks, as the API requires. -/
theorem C03_consistent (dims rs : List ℕ) (h : rs.length + 1 = dims.length)
    (hd : ∀ n ∈ dims, 0 < n) (hr : ∀ r ∈ rs, 0 < r) (hlen : dims.length ≤ 102) :
    ConsistentRanks dims (trimRanks dims rs) := by
  refine ⟨by rw [trimRanks_length _ _ h, h], fun i hi => ?_⟩
  rw [bonds_trim dims rs h hd hr i (by omega), bonds_trim dims rs h hd hr (i + 1) (by omega)]
  have hdp : ∀ i < dims.length, 0 < Trim.fn dims i := by
    intro i hi
    unfold Trim.fn
    rw [List.getD_eq_getElem _ _ hi]; exact hd _ (List.getElem_mem _)
  have hpos : ∀ i ≤ dims.length, 0 < Trim.fn (1 :: trimInit dims rs ++ [1]) i := by
    intro i hi
    match i with
    | 0 => simp [Trim.fn]
    | i + 1 =>
      by_cases hi' : i < rs.length
      · rw [trimInit_getD dims rs i hi']
        refine lt_min ?_ (lt_min ?_ ?_)
        · rw [List.getD_eq_getElem _ _ hi']; exact hr _ (List.getElem_mem _)
        · exact prod_pos' fun a ha => hd a (List.mem_of_mem_take ha)
        · exact prod_pos' fun a ha => hd a (List.mem_of_mem_drop ha)
      · have : i = (trimInit dims rs).length := by simp [trimInit]; omega
        subst this
        simp [Trim.fn, List.getD_eq_getElem?_getD]
  have hitpos := Trim.iterate_pos (Trim.fn dims) (Trim.fn (1 :: trimInit dims rs ++ [1]))
      dims.length 100 hpos hdp
  have hfn : Trim.fn (1 :: trimInit dims rs ++ [1]) dims.length = 1 := by
    simp [Trim.fn, trimInit, List.getD_eq_getElem?_getD, ← h]
  have h0 : ((fun f => Trim.sweepF (Trim.fn dims) f dims.length)^[100]
        (Trim.fn (1 :: trimInit dims rs ++ [1]))) 0 ≤ 1 :=
    Trim.iterate_le (Trim.fn dims) dims.length 100 (Trim.fn (1 :: trimInit dims rs ++ [1])) 0
  have hleft : ∀ i < dims.length, _ := fun i hi => by
    have := Trim.sweepF_left (Trim.fn dims) ((fun f => Trim.sweepF (Trim.fn dims) f
      dims.length)^[99] (Trim.fn (1 :: trimInit dims rs ++ [1]))) dims.length i hi
    rw [← Function.iterate_succ_apply' (fun f => Trim.sweepF (Trim.fn dims) f dims.length)] at this
    exact this
  refine ⟨hleft i hi, ?_⟩
  by_cases hi0 : i = 0
  · subst hi0
    have h1 := hitpos (0 + 1) (by omega)
    have h2 := hdp 0 hi
    exact h0.trans (Nat.mul_pos h2 h1)
  · have hlast : Trim.fn (1 :: trimInit dims rs ++ [1]) (dims.length - 1)
        ≤ Trim.fn dims (dims.length - 1) := by
      have e : dims.length - 1 = rs.length - 1 + 1 := by omega
      rw [e, trimInit_getD dims rs _ (by omega)]
      refine (min_le_right _ _).trans ((min_le_right _ _).trans ?_)
      have e2 : rs.length - 1 + 1 = rs.length := by omega
      rw [e2, List.drop_eq_getElem_cons (by omega), List.drop_of_length_le (by omega)]
      unfold Trim.fn
      rw [List.getD_eq_getElem _ _ (by omega)]
      simp
    exact (Trim.iterate_right (Trim.fn dims) _ dims.length 99 (by omega) hpos hdp hfn hlast).2.2
      i hi (by omega)

/-- C03, idempotence (same restriction as `C03_consistent`). -/
theorem C03_idempotent (dims rs : List ℕ) (h : rs.length + 1 = dims.length)
    (hd : ∀ n ∈ dims, 0 < n) (hr : ∀ r ∈ rs, 0 < r) (hlen : dims.length ≤ 102) :
    trimRanks dims (trimRanks dims rs) = trimRanks dims rs := by
  have hl := trimRanks_length dims rs h
  have hl2 := trimRanks_length dims (trimRanks dims rs) (by rw [hl, h])
  have hge := C03_greatest dims (trimRanks dims rs) (trimRanks dims rs) (by rw [hl, h])
    (C03_consistent dims rs h hd hr hlen) ⟨rfl, fun _ _ => le_rfl⟩
  refine List.ext_getElem hl2 fun i h1 h2 => ?_
  have a := (C02 dims (trimRanks dims rs) (by rw [hl, h]) i h2).2.1
  have b := hge.2 i h2
  rw [List.getD_eq_getElem _ _ h1, List.getD_eq_getElem _ _ h2] at a b
  omega

/-- Trimmed ranks of positive requests are positive (so the zero train never appears). -/
theorem C03_pos (dims rs : List ℕ) (h : rs.length + 1 = dims.length)
    (hd : ∀ n ∈ dims, 0 < n) (hr : ∀ r ∈ rs, 0 < r) (i : ℕ) (hi : i < rs.length) :
    0 < (trimRanks dims rs).getD i 0 := by
  have hone : ConsistentRanks dims (List.replicate rs.length 1) := by
    refine ⟨by simpa using h, fun j hj => ?_⟩
    have e : ∀ j ≤ dims.length, (bonds (List.replicate rs.length 1)).getD j 0 = 1 := by
      intro j hj
      unfold bonds
      rw [← List.replicate_one, ← List.replicate_add, ← List.replicate_succ,
        List.getD_eq_getElem _ _ (by simp; omega), List.getElem_replicate]
    have : 0 < dims.getD j 0 := by
      rw [List.getD_eq_getElem _ _ hj]; exact hd _ (List.getElem_mem _)
    rw [e j (by omega), e (j + 1) (by omega)]
    omega
  have := (C03_greatest dims rs _ h hone ⟨by simp, fun j hj => ?_⟩).2 i (by simpa)
  · rw [List.getD_eq_getElem _ _ (by simpa), List.getElem_replicate] at this
    exact this
  · have hj' : j < rs.length := by simpa using hj
    rw [List.getD_eq_getElem _ _ hj, List.getElem_replicate, List.getD_eq_getElem _ _ hj']
    exact hr _ (List.getElem_mem _)

/-- The trimming is doing something in a case meeting all hypotheses of C03. -/
example : trimRanks [2, 3, 4, 2, 3] [5, 1, 9, 7] = [2, 1, 4, 3] ∧
    ConsistentRanks [2, 3, 4, 2, 3] (trimRanks [2, 3, 4, 2, 3] [5, 1, 9, 7]) := by
  refine ⟨by decide +kernel, C03_consistent _ _ (by decide) (by decide) (by decide)
    (by decide)⟩

end TTS.Props
