import Verif.Model.Hash
import Verif.Spec.Hash
import Mathlib.Data.List.Perm.Basic
import Mathlib.Data.List.Count
import Mathlib.Data.List.GetD
import Mathlib.Tactic.IntervalCases
import Mathlib.Tactic.FieldSimp
import Mathlib.Tactic.NormNum

/-! Helper lemmas about the hash. -/

namespace TTS.Hash
open TTS.Spec

theorem xorshift_inj (s : ℕ) (hs : 0 < s) (x y : U64) (h : x ^^^ (x >>> s) = y ^^^ (y >>> s)) :
    x = y := by
  have key : ∀ k i, 64 - i ≤ k → x.getLsbD i = y.getLsbD i := by
    intro k
    induction k with
    | zero =>
      intro i hi
      rw [BitVec.getLsbD_of_ge x i (by omega), BitVec.getLsbD_of_ge y i (by omega)]
    | succ k ih =>
      intro i hi
      have h1 := congrArg (fun z => z.getLsbD i) h
      simp only [BitVec.getLsbD_xor, BitVec.getLsbD_ushiftRight] at h1
      rw [ih (s + i) (by omega)] at h1
      simpa using h1
  exact BitVec.eq_of_getLsbD_eq fun i _ => key 64 i (by omega)

theorem mul_inj (c d : U64) (hcd : c * d = 1#64) (x y : U64) (h : x * c = y * c) : x = y := by
  have := congrArg (· * d) h
  simpa [BitVec.mul_assoc, hcd] using this

theorem add_inj (c x y : U64) (h : x + c = y + c) : x = y := by
  have := congrArg (· - c) h
  simpa using this

theorem hash1_inj (x y : U64) (h : hash1 x = hash1 y) : x = y := by
  have h := xorshift_inj 31 (by omega) _ _ h
  have h := mul_inj _ 0x319642b2d24d8ec3#64 (by decide) _ _ h
  have h := xorshift_inj 27 (by omega) _ _ h
  have h := mul_inj _ 0x96de1b173f119089#64 (by decide) _ _ h
  have h := xorshift_inj 30 (by omega) _ _ h
  exact add_inj _ _ _ h

/-! ### the mask -/

theorem mask_bit (h : U64) (i : ℕ) :
    (mask h).getLsbD i = if i < 61 then h.getLsbD i else decide (i = 61) := by
  have e1 : (0x2000000000000000#64).getLsbD i = decide (i = 61) := by
    by_cases hi : i < 64
    · interval_cases i <;> decide
    · rw [BitVec.getLsbD_of_ge _ _ (by omega)]; simp; omega
  have e2 : (0x3FFFFFFFFFFFFFFF#64).getLsbD i = decide (i < 62) := by
    by_cases hi : i < 64
    · interval_cases i <;> decide
    · rw [BitVec.getLsbD_of_ge _ _ (by omega)]; simp; omega
  unfold mask
  rw [BitVec.getLsbD_and, BitVec.getLsbD_or, e1, e2]
  by_cases h1 : i < 61
  · have : ¬ i = 61 := by omega
    have h2 : i < 62 := by omega
    simp [h1, this, h2]
  · rw [if_neg h1]
    by_cases h3 : i = 61
    · simp [h3]
    · have : ¬ i < 62 := by omega
      simp [h3, this]

theorem mask_toNat (h : U64) : (mask h).toNat = 2 ^ 61 + h.toNat % 2 ^ 61 := by
  apply Nat.eq_of_testBit_eq
  intro i
  have := mask_bit h i
  simp only [BitVec.getLsbD] at this
  rw [this]
  have hlt : h.toNat % 2 ^ 61 < 2 ^ 61 := Nat.mod_lt _ (by positivity)
  by_cases h1 : i < 61
  · rw [if_pos h1, Nat.testBit_two_pow_add_gt h1, Nat.testBit_mod_two_pow]; simp [h1]
  · rw [if_neg h1]
    by_cases h2 : i = 61
    · subst h2
      rw [Nat.testBit_two_pow_add_eq, Nat.testBit_lt_two_pow hlt]; rfl
    · rw [Nat.testBit_lt_two_pow]
      · simp [h2]
      · calc 2 ^ 61 + h.toNat % 2 ^ 61 < 2 ^ 62 := by omega
          _ ≤ 2 ^ i := Nat.pow_le_pow_right (by norm_num) (by omega)

theorem mask_eq (h : U64) : mask h = BitVec.ofNat 64 (2 ^ 61 + h.toNat % 2 ^ 61) := by
  apply BitVec.eq_of_toNat_eq
  have h1 := Nat.mod_lt h.toNat (show 0 < 2 ^ 61 by positivity)
  have h2 : 2 ^ 61 + h.toNat % 2 ^ 61 < 2 ^ 64 := by omega
  rw [mask_toNat, BitVec.toNat_ofNat, Nat.mod_eq_of_lt h2]

theorem mask_exp (h : U64) : 512 ≤ expBits (mask h) ∧ expBits (mask h) ≤ 1023 := by
  unfold expBits
  rw [mask_toNat]
  omega

theorem mask_sign (h : U64) : (mask h).toNat / 2 ^ 63 = 0 := by
  rw [mask_toNat]; omega

theorem signOf_eq (h : U64) : signOf h = 1 ∨ signOf h = -1 := by
  unfold signOf
  omega

/-! ### keys -/

/-- the key of one multi-index -/
def keyFrom : U64 → BitVec 32 → List ℕ → List ℕ → U64
  | acc, _, [], _ => acc
  | acc, _, _ :: _, [] => acc
  | acc, p, i :: is, s :: ss =>
    keyFrom (acc + BitVec.ofNat 64 i * p.signExtend 64)
      ((p.signExtend 64 * BitVec.ofNat 64 s).truncate 32) is ss

/-- the key of one multi-index -/
def key (shape idx : List ℕ) : U64 :=
  match idx, shape with
  | i :: is, s :: ss => keyFrom (BitVec.ofNat 64 i) ((BitVec.ofNat 64 s).truncate 32) is ss
  | _, _ => 0

theorem foldl_flat (idxs : List (List ℕ)) (n : ℕ) (acc : List ℕ → U64) (p : BitVec 32) :
    ∀ (shape : List ℕ) (_ : ∀ i ∈ idxs, i.length = n + shape.length),
    (((((List.range shape.length).map fun k => idxs.map fun i => BitVec.ofNat 64 (i.getD (n + k) 0)).zip
      (shapeArray shape)).foldl flatStep (idxs.map acc, p))).1
      = idxs.map fun i => keyFrom (acc i) p (i.drop n) shape
  | [], hd => by
    simp only [List.length_nil, List.range_zero, List.map_nil, List.zip_nil_left, List.foldl_nil]
    refine List.map_congr_left fun i hi => ?_
    have := hd i hi
    rw [List.drop_of_length_le (by simpa using this.le)]; rfl
  | s :: ss, hd => by
    rw [List.length_cons, List.range_succ_eq_map]
    simp only [List.map_cons, List.map_map, shapeArray, List.zip_cons_cons, List.foldl_cons,
      flatStep, List.zipWith_map, List.zipWith_self]
    have := foldl_flat idxs (n + 1)
      (fun i => acc i + BitVec.ofNat 64 (i.getD n 0) * p.signExtend 64)
      ((p.signExtend 64 * BitVec.ofNat 64 s).truncate 32) ss
      (fun i hi => by rw [hd i hi]; simp; omega)
    simp only [shapeArray] at this
    have e : ((fun k => List.map (fun i => BitVec.ofNat 64 (i.getD (n + k) 0)) idxs) ∘ Nat.succ)
        = fun k => List.map (fun i : List ℕ => BitVec.ofNat 64 (i.getD (n + 1 + k) 0)) idxs := by
      funext k; simp only [Function.comp]; congr 2; funext i; congr 2; omega
    rw [e, add_zero]
    refine this.trans (List.map_congr_left fun i hi => ?_)
    have hl := hd i hi
    have hn : n < i.length := by rw [hl]; simp
    rw [List.drop_eq_getElem_cons hn]
    simp only [keyFrom]
    rw [List.getD_eq_getElem _ _ hn]

/-- The keys are computed index by index. -/
theorem indicesFlat_eq (shape : List ℕ) (hs : shape ≠ []) (idxs : List (List ℕ))
    (hd : ∀ i ∈ idxs, i.length = shape.length) :
    indicesFlat (idxArray shape.length idxs) (shapeArray shape) = idxs.map (key shape) := by
  match shape, hs with
  | s :: ss, _ =>
    have h := foldl_flat idxs 1 (fun i => BitVec.ofNat 64 (i.getD 0 0))
      ((BitVec.ofNat 64 s).truncate 32) ss (fun i hi => by rw [hd i hi]; simp; omega)
    unfold idxArray
    rw [List.length_cons, List.range_succ_eq_map]
    simp only [List.map_cons, List.map_map, shapeArray, indicesFlat] at h ⊢
    have e : ((fun k => List.map (fun i => BitVec.ofNat 64 (i.getD k 0)) idxs) ∘ Nat.succ)
        = fun k => List.map (fun i : List ℕ => BitVec.ofNat 64 (i.getD (1 + k) 0)) idxs := by
      funext k; simp only [Function.comp]; congr 2; funext i; congr 2; omega
    rw [e]
    refine h.trans (List.map_congr_left fun i hi => ?_)
    match i, hd i hi with
    | j :: js, _ => simp [key]

theorem chunk_flatMap {α β : Type*} (l : List α) (f : α → List β) (r : ℕ)
    (h : ∀ a ∈ l, (f a).length = r) : chunk r l.length (l.flatMap f) = l.map f := by
  induction l with
  | nil => rfl
  | cons a l ih =>
    have ha := h a (by simp)
    simp only [List.length_cons, List.flatMap_cons, chunk, List.map_cons]
    rw [List.take_append_of_le_length (by omega), List.take_of_length_le (by omega),
      List.drop_append_of_le_length (by omega), List.drop_of_length_le (by omega), List.nil_append,
      ih fun b hb => h b (by simp [hb])]

theorem numInds_idxArray (d : ℕ) (hd : 0 < d) (idxs : List (List ℕ)) :
    numInds (idxArray d idxs) = idxs.length := by
  obtain ⟨k, rfl⟩ := Nat.exists_eq_succ_of_ne_zero hd.ne'
  simp [numInds, idxArray, List.range_succ_eq_map]

/-- hashed bits of entry (index, column) -/
def entryBits (shape : List ℕ) (seed : U64) (i : List ℕ) (c : ℕ) : U64 :=
  mask (hash1 (key shape i + (hash1 (BitVec.ofNat 64 c) + seed)))

theorem indsToRandBits_eq (shape : List ℕ) (hs : shape ≠ []) (idxs : List (List ℕ))
    (hd : ∀ i ∈ idxs, i.length = shape.length) (a b : ℕ) (seed : U64) :
    indsToRandBits (idxArray shape.length idxs) (shapeArray shape) a b seed
      = idxs.flatMap fun i => (List.range (b - a)).map fun j => entryBits shape seed i (a + j) := by
  unfold indsToRandBits
  rw [indicesFlat_eq shape hs idxs hd]
  simp [hashInt, sizeSalt, List.map_flatMap, List.flatMap_map, entryBits, Function.comp_def]

/-! ### injectivity of the key -/

theorem ofNat_mod_small {p : ℕ} (hp : p < 2 ^ 31) :
    (BitVec.ofNat 32 p).signExtend 64 = BitVec.ofNat 64 p := by
  apply BitVec.eq_of_toInt_eq
  rw [BitVec.toInt_signExtend_of_le (by omega)]
  rw [BitVec.toInt_ofNat', BitVec.toInt_ofNat']
  rw [Int.bmod_eq_of_le (by omega) (by omega), Int.bmod_eq_of_le (by omega) (by omega)]

theorem keyFrom_eq (acc p : ℕ) : ∀ (is ss : List ℕ), InR ss is → p * ss.dropLast.prod < 2 ^ 31 →
    keyFrom (BitVec.ofNat 64 acc) (BitVec.ofNat 32 p) is ss
      = BitVec.ofNat 64 (acc + p * ravel ss.reverse is.reverse)
  | [], [], _, _ => by simp [keyFrom]
  | i :: is, s :: ss, h, hp => by
    have hss : 0 < ss.dropLast.prod := by
      have h2 := h.2
      rcases List.eq_nil_or_concat ss with rfl | ⟨l, a, rfl⟩
      · simp
      · have := h2.prod_pos
        rw [List.concat_eq_append, List.dropLast_concat]
        rw [List.concat_eq_append, List.prod_append] at this
        exact Nat.pos_of_ne_zero fun h0 => by simp [h0] at this
    have hp31 : p < 2 ^ 31 := by
      rcases ss with _ | ⟨t, ts⟩
      · simpa using hp
      · have h1 : 0 < s := by have := h.1; omega
        rw [List.dropLast_cons_cons, List.prod_cons] at hp
        calc p ≤ p * (s * (t :: ts).dropLast.prod) := Nat.le_mul_of_pos_right _ (Nat.mul_pos h1 hss)
          _ < _ := hp
    simp only [keyFrom]
    rw [ofNat_mod_small hp31]
    have e1 : BitVec.ofNat 64 acc + BitVec.ofNat 64 i * BitVec.ofNat 64 p
        = BitVec.ofNat 64 (acc + i * p) := by
      rw [BitVec.ofNat_add, BitVec.ofNat_mul]
    have e2 : (BitVec.ofNat 64 p * BitVec.ofNat 64 s).truncate 32 = BitVec.ofNat 32 (p * s) := by
      rw [← BitVec.ofNat_mul]
      apply BitVec.eq_of_toNat_eq
      simp
    rw [e1, e2]
    rcases ss with _ | ⟨t, ts⟩
    · match is, h.2 with
      | [], _ =>
        simp only [keyFrom, List.reverse_singleton, ravel_cons, List.prod_nil, ravel_nil]
        congr 1; ring
    · rw [keyFrom_eq (acc + i * p) (p * s) is (t :: ts) h.2
        (by rw [List.dropLast_cons_cons, List.prod_cons] at hp; rw [mul_assoc]; exact hp)]
      rw [List.reverse_cons (a := s), List.reverse_cons (a := i),
        ravel_append (by simpa using h.2.length)]
      simp only [List.prod_cons, List.prod_nil, ravel_cons, ravel_nil]
      congr 1; ring
  | [], _ :: _, h, _ => h.elim
  | _ :: _, [], h, _ => h.elim

theorem key_eq (shape idx : List ℕ) (h : InR shape idx) (hs : shape ≠ [])
    (hp : shape.dropLast.prod < 2 ^ 31) :
    key shape idx = BitVec.ofNat 64 (ravel shape.reverse idx.reverse) := by
  match shape, idx, h with
  | [], [], _ => exact absurd rfl hs
  | s :: ss, i :: is, h =>
    have e0 : (BitVec.ofNat 64 s).truncate 32 = BitVec.ofNat 32 s := by
      apply BitVec.eq_of_toNat_eq; simp
    simp only [key, e0]
    rcases ss with _ | ⟨t, ts⟩
    · match is, h.2 with
      | [], _ => simp [keyFrom]
    · rw [keyFrom_eq i s is (t :: ts) h.2 (by rw [List.dropLast_cons_cons, List.prod_cons] at hp; exact hp)]
      rw [List.reverse_cons (a := s), List.reverse_cons (a := i),
        ravel_append (by simpa using h.2.length)]
      simp only [List.prod_cons, List.prod_nil, ravel_cons, ravel_nil]
      congr 1; ring

/-! ### the shuffled sign row -/

theorem set_set_perm (l : List ℤ) (i j : ℕ) (hi : i < l.length) (hj : j < l.length) :
    ((l.set i (l.getD j 0)).set j (l.getD i 0)).Perm l := by
  rw [List.getD_eq_getElem _ _ hi, List.getD_eq_getElem _ _ hj]
  exact List.set_set_perm hi hj

theorem swapStep_perm (rank : ℕ) (row : List ℤ) (j m : ℕ) (hr : row.length = rank) (hj : j < rank)
    (hm : m < 2 ^ 52) : (swapStep rank row (j, m)).Perm row := by
  simp only [swapStep]
  have h1 : (m * (rank - j) + j * 2 ^ 52) / 2 ^ 52 < rank := by
    rw [Nat.div_lt_iff_lt_mul (by positivity)]
    have h2 : m * (rank - j) < 2 ^ 52 * (rank - j) :=
      Nat.mul_lt_mul_of_pos_right hm (by omega)
    have h3 : rank * 2 ^ 52 = 2 ^ 52 * (rank - j) + j * 2 ^ 52 := by
      have : rank = (rank - j) + j := by omega
      conv_lhs => rw [this]
      ring
    omega
  exact set_set_perm row j _ (by omega) (by omega)

theorem foldl_swap_perm (rank : ℕ) (l : List (ℕ × ℕ)) (hl : ∀ p ∈ l, p.1 < rank ∧ p.2 < 2 ^ 52) :
    ∀ row : List ℤ, row.length = rank → (l.foldl (swapStep rank) row).Perm row := by
  induction l with
  | nil => intro row _; exact List.Perm.refl _
  | cons p l ih =>
    intro row hr
    have hp := hl p (by simp)
    have h1 := swapStep_perm rank row p.1 p.2 hr hp.1 hp.2
    simp only [List.foldl_cons]
    exact (ih (fun q hq => hl q (by simp [hq])) _ (h1.length_eq.trans hr)).trans h1

theorem signRow_perm (rank : ℕ) (bits : List U64) (h : bits.length ≤ rank) :
    (signRow rank bits).Perm (bits.map signOf ++ List.replicate (rank - bits.length) 0) := by
  unfold signRow
  apply foldl_swap_perm
  · intro p hp
    have h1 := List.of_mem_zip hp
    refine ⟨by have := List.mem_range.1 h1.1; omega, ?_⟩
    obtain ⟨b, _, hb⟩ := List.mem_map.1 h1.2
    rw [← hb]
    exact Nat.mod_lt _ (by positivity)
  · simp; omega

end TTS.Hash
