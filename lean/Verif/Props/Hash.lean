import Verif.Proofs.Hash

/-!
# C24-C28: the hashed pseudo-random numbers (`tt_sketch/drm/fast_lazy_gaussian.pyx`)
-/

namespace TTS.Props

open TTS TTS.Hash TTS.Spec

/-! ## C24 -/

/-- C24: `hash_int_c` maps distinct values to distinct values, and position by position on arrays. -/
theorem C24 : (∀ x y : BitVec 64, hashInt [x] = hashInt [y] → x = y) ∧
    ∀ xs ys : List (BitVec 64), hashInt xs = hashInt ys → xs = ys := by
  have h2 : ∀ xs ys : List (BitVec 64), hashInt xs = hashInt ys → xs = ys := by
    intro xs ys h
    exact (List.map_injective_iff.2 fun x y => hash1_inj x y) h
  refine ⟨fun x y h => ?_, h2⟩
  simpa using h2 _ _ h

/-- Not vacuous: two close inputs and their (different) hashes. -/
example : hashInt [0#64, 1#64] = [0x6df1829614ffc95f#64, 0x926f33a0a71291fe#64] := by decide

/-! ## C25 -/

/-- C25: every bit pattern that is used as a double is a positive finite normal number
`x = m * 2^e` with `1/2 ≤ m < 1` and `-510 ≤ e ≤ 1`; the number `2m - 1` handed to `ndtri` (or used
as uniform number) lies in `[0,1)` and is `unifNum / 2^52`. -/
theorem C25 (rows : List (List (BitVec 64))) (shape : List (BitVec 64)) (a b : ℕ) (seed h : BitVec 64)
    (hh : h ∈ indsToRandBits rows shape a b seed) :
    IsPosNormal h ∧ 0 < ieeeNormal h ∧ -510 ≤ frexpExp h ∧ frexpExp h ≤ 1 ∧
    ∃ m : ℚ, 1 / 2 ≤ m ∧ m < 1 ∧ ieeeNormal h = m * (2 : ℚ) ^ frexpExp h ∧
      2 * m - 1 = (unifNum h : ℚ) / 2 ^ 52 ∧ 0 ≤ 2 * m - 1 ∧ 2 * m - 1 < 1 := by
  obtain ⟨g, -, rfl⟩ := List.mem_map.1 hh
  have h1 := mask_sign g
  obtain ⟨h2, h3⟩ := mask_exp g
  have hlt : (((mask g).toNat % 2 ^ 52 : ℕ) : ℚ) < 2 ^ 52 := by
    have : (mask g).toNat % 2 ^ 52 < 2 ^ 52 := Nat.mod_lt _ (by positivity)
    exact_mod_cast this
  have hge : (0 : ℚ) ≤ ((mask g).toNat % 2 ^ 52 : ℕ) := by positivity
  have hd : (((mask g).toNat % 2 ^ 52 : ℕ) : ℚ) / 2 ^ 52 < 1 := by
    rw [div_lt_one (by positivity)]; exact hlt
  have hd0 : (0 : ℚ) ≤ (((mask g).toNat % 2 ^ 52 : ℕ) : ℚ) / 2 ^ 52 := by positivity
  have hval : ieeeNormal (mask g) =
      ((1 + (((mask g).toNat % 2 ^ 52 : ℕ) : ℚ) / 2 ^ 52) / 2) * (2 : ℚ) ^ frexpExp (mask g) := by
    unfold ieeeNormal frexpExp expBits
    rw [h1, pow_zero, one_mul]
    have e : ((((mask g).toNat / 2 ^ 52 % 2 ^ 11 : ℕ) : ℤ) - 1022)
        = ((((mask g).toNat / 2 ^ 52 % 2 ^ 11 : ℕ) : ℤ) - 1023) + 1 := by ring
    rw [e, zpow_add₀ (by norm_num), zpow_one]
    ring
  refine ⟨⟨h1, ?_, ?_⟩, ?_, ?_, ?_, (1 + (((mask g).toNat % 2 ^ 52 : ℕ) : ℚ) / 2 ^ 52) / 2,
    ?_, ?_, hval, ?_, ?_, ?_⟩
  · unfold expBits at h2; omega
  · unfold expBits at h3; omega
  · rw [hval]
    have : (0 : ℚ) < 2 ^ frexpExp (mask g) := zpow_pos (by norm_num) _
    exact mul_pos (by linarith) this
  · unfold frexpExp; omega
  · unfold frexpExp; omega
  · linarith
  · linarith
  · unfold unifNum sigBits; ring
  · linarith
  · linarith

example : ∃ h, h ∈ indsToRandBits (idxArray 2 [[1, 2], [0, 1]]) (shapeArray [2, 3]) 0 4 17#64 := by
  exact ⟨_, List.getElem_mem (n := 5) (by decide +kernel)⟩

/-! ## C26 -/

/-- C26: the sparse sign matrix has one row per index; each row has `rank` entries, all of them
`-1`, `0` or `1`, and exactly `nnz` non-zeros (for `nnz ≤ rank`). -/
theorem C26 (shape : List ℕ) (hs : shape ≠ []) (idxs : List (List ℕ))
    (hd : ∀ i ∈ idxs, i.length = shape.length) (rank nnz seed : ℕ) (hn : nnz ≤ rank) :
    let M := indsToSparseSign (idxArray shape.length idxs) (shapeArray shape) rank 0 rank nnz seed
    M.length = idxs.length ∧ ∀ row ∈ M, row.length = rank ∧
      (∀ x ∈ row, x = -1 ∨ x = 0 ∨ x = 1) ∧ row.countP (· ≠ 0) = nnz := by
  have hpos : 0 < shape.length := List.length_pos_iff.2 hs
  simp only [indsToSparseSign]
  rw [indsToRandBits_eq shape hs idxs hd, numInds_idxArray _ hpos,
    chunk_flatMap _ _ _ (by intros; simp)]
  refine ⟨by simp, ?_⟩
  intro row hrow
  simp only [List.map_map, List.mem_map, Function.comp] at hrow
  obtain ⟨i, -, rfl⟩ := hrow
  set bits := (List.range (nnz - 0)).map fun j => entryBits shape (seedMod seed) i (0 + j) with hb
  have hbl : bits.length = nnz := by simp [hb]
  have hp := signRow_perm rank bits (by omega)
  have hlen : (signRow rank bits).length = rank := by rw [hp.length_eq]; simp; omega
  rw [List.drop_zero, List.take_of_length_le (by omega)]
  refine ⟨hlen, ?_, ?_⟩
  · intro x hx
    rcases List.mem_append.1 (hp.mem_iff.1 hx) with h | h
    · obtain ⟨b, -, rfl⟩ := List.mem_map.1 h
      rcases signOf_eq b with h | h <;> simp [h]
    · right; left; exact (List.mem_replicate.1 h).2
  · rw [hp.countP_eq, List.countP_append]
    have e1 : List.countP (fun x => decide (x ≠ 0)) (bits.map signOf) = bits.length := by
      rw [← List.length_map (f := signOf) (as := bits), List.countP_eq_length]
      intro x hx
      obtain ⟨b, -, rfl⟩ := List.mem_map.1 hx
      rcases signOf_eq b with h | h <;> simp [h]
    have e2 : List.countP (fun x : ℤ => decide (x ≠ 0)) (List.replicate (rank - bits.length) 0)
        = 0 := by
      rw [List.countP_eq_zero]
      intro x hx
      simp [(List.mem_replicate.1 hx).2]
    rw [e1, e2, hbl, add_zero]

/-- C26: a column slice of the sign matrix is the slice of its full rows. -/
theorem C26_slice (shape : List ℕ) (hs : shape ≠ []) (idxs : List (List ℕ))
    (hd : ∀ i ∈ idxs, i.length = shape.length) (rank nnz seed a b : ℕ) (hn : nnz ≤ rank) :
    indsToSparseSign (idxArray shape.length idxs) (shapeArray shape) rank a b nnz seed
      = (indsToSparseSign (idxArray shape.length idxs) (shapeArray shape) rank 0 rank nnz seed).map
          fun row => (row.take b).drop a := by
  have hpos : 0 < shape.length := List.length_pos_iff.2 hs
  simp only [indsToSparseSign, List.map_map]
  rw [indsToRandBits_eq shape hs idxs hd, numInds_idxArray _ hpos,
    chunk_flatMap _ _ _ (by intros; simp), List.map_map, List.map_map]
  refine List.map_congr_left fun i _ => ?_
  simp only [Function.comp]
  rw [List.drop_zero, List.take_of_length_le (l := signRow _ _) (i := rank)]
  rw [(signRow_perm rank _ (by simpa using hn)).length_eq]; simp; omega

example : indsToSparseSign (idxArray 2 [[1, 2], [0, 1]]) (shapeArray [2, 3]) 4 0 4 2 11
    = [[0, 0, 1, 1], [-1, 0, 1, 0]] := by decide +kernel

/-! ## C27 -/

/-- C27: two distinct multi-indices within the shape get distinct hashed bit patterns (before the
three leading bits are overwritten) in every column; after the overwriting they can agree only if
the hashes differ in those three bits alone.  Domain: the product of all mode sizes
but the last is below `2^31` (the range of the C `int` the code accumulates it in) and the total
size is at most `2^64`; outside this range see `C27_counterexample`. -/
theorem C27_distinct (shape : List ℕ) (hs : shape ≠ []) (hp : shape.dropLast.prod < 2 ^ 31)
    (ht : shape.prod ≤ 2 ^ 64) (i j : List ℕ) (hi : InR shape i) (hj : InR shape j) (hij : i ≠ j) :
    -- the keys
    indicesFlat (idxArray shape.length [i]) (shapeArray shape)
      ≠ indicesFlat (idxArray shape.length [j]) (shapeArray shape) ∧
    -- the doubles, column by column
    ∀ (c : ℕ) (seed : BitVec 64), ∃ hi' hj' : BitVec 64, hi' ≠ hj' ∧
      indsToRandBits (idxArray shape.length [i]) (shapeArray shape) c (c + 1) seed
        = [BitVec.ofNat 64 (2 ^ 61 + hi'.toNat % 2 ^ 61)] ∧
      indsToRandBits (idxArray shape.length [j]) (shapeArray shape) c (c + 1) seed
        = [BitVec.ofNat 64 (2 ^ 61 + hj'.toNat % 2 ^ 61)] := by
  have hli : ∀ k ∈ [i], k.length = shape.length := by simpa using hi.length
  have hlj : ∀ k ∈ [j], k.length = shape.length := by simpa using hj.length
  have hkey : key shape i ≠ key shape j := by
    rw [key_eq shape i hi hs hp, key_eq shape j hj hs hp]
    intro h
    have h1 := congrArg BitVec.toNat h
    have li : ravel shape.reverse i.reverse < 2 ^ 64 :=
      lt_of_lt_of_le (ravel_lt hi.reverse) (by rw [List.prod_reverse]; exact ht)
    have lj : ravel shape.reverse j.reverse < 2 ^ 64 :=
      lt_of_lt_of_le (ravel_lt hj.reverse) (by rw [List.prod_reverse]; exact ht)
    rw [BitVec.toNat_ofNat, BitVec.toNat_ofNat, Nat.mod_eq_of_lt li, Nat.mod_eq_of_lt lj] at h1
    exact hij (List.reverse_injective (ravel_inj hi.reverse hj.reverse h1))
  refine ⟨?_, fun c seed => ?_⟩
  · rw [indicesFlat_eq shape hs _ hli, indicesFlat_eq shape hs _ hlj]
    simpa using hkey
  · refine ⟨hash1 (key shape i + (hash1 (BitVec.ofNat 64 c) + seed)),
      hash1 (key shape j + (hash1 (BitVec.ofNat 64 c) + seed)), ?_, ?_, ?_⟩
    · intro h; exact hkey (add_inj _ _ _ (hash1_inj _ _ h))
    · rw [indsToRandBits_eq shape hs _ hli]
      simp only [Nat.add_sub_cancel_left, List.range_one, List.map_cons, List.map_nil,
        List.flatMap_cons, List.flatMap_nil, List.append_nil, add_zero, List.cons.injEq, and_true]
      exact mask_eq _
    · rw [indsToRandBits_eq shape hs _ hlj]
      simp only [Nat.add_sub_cancel_left, List.range_one, List.map_cons, List.map_nil,
        List.flatMap_cons, List.flatMap_nil, List.append_nil, add_zero, List.cons.injEq, and_true]
      exact mask_eq _

example : InR [300, 400, 500] [299, 7, 499] ∧ [300, 400, 500].dropLast.prod < 2 ^ 31 := by decide

/-- C27 is false of the code for large shapes: in shape `(2^16, 2^16, 2)` the two last entries of
every fibre get the same key, hence identical pseudo-random rows for every seed and rank, because
the running product overflows the 32-bit `int`. -/
theorem C27_counterexample (x y : ℕ) (a b : ℕ) (seed : BitVec 64) :
    let shape := [2 ^ 16, 2 ^ 16, 2]
    indsToRandBits (idxArray 3 [[x, y, 0]]) (shapeArray shape) a b seed
      = indsToRandBits (idxArray 3 [[x, y, 1]]) (shapeArray shape) a b seed := by
  have h := indsToRandBits_eq [2 ^ 16, 2 ^ 16, 2] (by simp) [[x, y, 0]] (by simp) a b seed
  have h' := indsToRandBits_eq [2 ^ 16, 2 ^ 16, 2] (by simp) [[x, y, 1]] (by simp) a b seed
  simp only [List.length_cons, List.length_nil, zero_add, Nat.reduceAdd] at h h'
  simp only
  rw [h, h']
  have e : key [2 ^ 16, 2 ^ 16, 2] [x, y, 0] = key [2 ^ 16, 2 ^ 16, 2] [x, y, 1] := by
    have z : ((BitVec.signExtend 64 (BitVec.truncate 32 (BitVec.ofNat 64 (2 ^ 16)))
      * BitVec.ofNat 64 (2 ^ 16)).truncate 32).signExtend 64 = 0#64 := by decide
    simp only [key, keyFrom, z]
    simp
  simp only [List.flatMap_cons, List.flatMap_nil, List.append_nil, entryBits, e]

/-! ## C28 -/

/-- C28 (Gaussian): there is a function `f` of index and column, fixed by shape and seed, such that
for every list of indices and every column range the result is the array of its values: so
permuting, repeating or splitting the indices does the same to the rows, and a column range is a
range of columns of any larger request. -/
theorem C28_normal {K : Type*} (ndtri : ℕ → K) (shape : List ℕ) (hs : shape ≠ []) (seed : ℕ) :
    ∃ f : List ℕ → ℕ → K, ∀ (idxs : List (List ℕ)) (_ : ∀ i ∈ idxs, i.length = shape.length)
      (a b : ℕ),
      indsToNormal ndtri (idxArray shape.length idxs) (shapeArray shape) a b seed
        = idxs.map fun i => (List.range (b - a)).map fun j => f i (a + j) := by
  refine ⟨fun i c => ndtri (unifNum (entryBits shape (seedMod seed) i c)), ?_⟩
  intro idxs hd a b
  have hpos : 0 < shape.length := List.length_pos_iff.2 hs
  unfold indsToNormal indsToNormalFlat
  rw [indsToRandBits_eq shape hs idxs hd, numInds_idxArray _ hpos, List.map_flatMap,
    chunk_flatMap _ _ _ (by intros; simp)]
  simp

/-- C28 (sparse sign): the rows depend on their index only. -/
theorem C28_sign (shape : List ℕ) (hs : shape ≠ []) (seed rank nnz : ℕ) :
    ∃ f : List ℕ → List ℤ, ∀ (idxs : List (List ℕ)) (_ : ∀ i ∈ idxs, i.length = shape.length)
      (a b : ℕ),
      indsToSparseSign (idxArray shape.length idxs) (shapeArray shape) rank a b nnz seed
        = idxs.map fun i => ((f i).take b).drop a := by
  refine ⟨fun i => signRow rank ((List.range (nnz - 0)).map fun j =>
    entryBits shape (seedMod seed) i (0 + j)), ?_⟩
  intro idxs hd a b
  have hpos : 0 < shape.length := List.length_pos_iff.2 hs
  simp only [indsToSparseSign]
  rw [indsToRandBits_eq shape hs idxs hd, numInds_idxArray _ hpos,
    chunk_flatMap _ _ _ (by intros; simp)]
  simp

/-- Rows of different indices do differ: the theorem is not about a constant. -/
example : indsToNormal id (idxArray 2 [[1, 2], [0, 1], [1, 2]]) (shapeArray [2, 3]) 1 3 5
    = [[3577881827796325, 818522245763071], [2283581941160981, 3305598366893924], [3577881827796325, 818522245763071]] := by decide +kernel

/-- Finding: consecutive modes reuse numbers.  The sketch of mode `mu` uses seed `seed + mu`
(`sparse_gaussian_drm.py` 32-34), and the seed is added to the key, so the number at key `k` with
seed `s+1` is the number at key `k+1` with seed `s`. -/
theorem C28_shift (k seed salt : BitVec 64) :
    hash1 (k + (salt + (seed + 1))) = hash1 ((k + 1) + (salt + seed)) := by
  congr 1
  ac_rfl

end TTS.Props
