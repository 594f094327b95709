import Verif.Model.GatherInt
import Verif.Spec.GatherInt
import Verif.Props.Tensor

/-!
# C89: `gather` with negative indices, indices out of range and the wrong number of rows
-/

namespace TTS.Props

open TTS Finset

variable {K : Type*}

theorem wrapIdx_eq {n k : ℕ} {z : ℤ} : wrapIdx n z = some k ↔ k < n ∧ (z = k ∨ z = (k : ℤ) - n) := by
  unfold wrapIdx
  split
  · rename_i h
    rw [Option.some.injEq]
    omega
  · split
    · rw [Option.some.injEq]
      omega
    · simp only [reduceCtorEq, false_iff]
      omega

/-- `Option`-valued `mapM` succeeds with `ys` if and only if `f` succeeds pointwise. -/
theorem mapM_some {α β : Type*} (f : α → Option β) : ∀ (xs : List α) (ys : List β),
    xs.mapM f = some ys ↔ List.Forall₂ (fun x y => f x = some y) xs ys
  | [], ys => by cases ys <;> simp
  | x :: xs, ys => by
    have ih := mapM_some f xs
    rw [List.mapM_cons]
    cases hx : f x with
    | none =>
      cases ys <;> simp [hx]
    | some y =>
      cases hxs : xs.mapM f with
      | none =>
        cases ys with
        | nil => simp
        | cons z zs =>
          have := (ih zs).symm
          rw [hxs] at this
          simp only [reduceCtorEq, iff_false] at this
          simp [hx, this]
      | some ws =>
        cases ys with
        | nil => simp
        | cons z zs =>
          have := (ih zs).symm
          rw [hxs] at this
          simp [hx, this]

theorem forall₂_left {α β : Type*} {R : α → β → Prop} : ∀ {xs : List α} {ys : List β}, List.Forall₂ R xs ys →
    ∀ {x}, x ∈ xs → ∃ y, R x y
  | _ :: _, _ :: _, .cons h hs, x, hx => by
    rcases List.mem_cons.1 hx with rfl | hx
    · exact ⟨_, h⟩
    · exact forall₂_left hs hx

theorem forall₂_right {α β : Type*} {R : α → β → Prop} {xs : List α} {ys : List β} (h : List.Forall₂ R xs ys)
    {y : β} (hy : y ∈ ys) : ∃ x, R x y := forall₂_left h.flip hy

theorem mapM_none {α β : Type*} (f : α → Option β) {xs : List α} {x : α} (hx : x ∈ xs) (h : ∀ y, f x ≠ some y) :
    xs.mapM f = none := by
  cases e : xs.mapM f with
  | none => rfl
  | some ys =>
    obtain ⟨y, hy⟩ := forall₂_left ((mapM_some f xs ys).1 e) hx
    exact absurd hy (h y)

theorem zip_take_length {α β : Type*} : ∀ (xs : List α) (ys : List β), xs.zip (ys.take xs.length) = xs.zip ys
  | [], _ => rfl
  | _ :: _, [] => rfl
  | _ :: xs, _ :: ys => by simp [zip_take_length xs ys]

theorem take_zip_length {α β : Type*} : ∀ (xs : List α) (ys : List β), (xs.take ys.length).zip ys = xs.zip ys
  | [], _ => by simp
  | _ :: _, [] => by simp
  | _ :: xs, _ :: ys => by simp [take_zip_length xs ys]

theorem selects_iff : ∀ {sh : List ℕ} {c : List ℤ} {i : List ℕ},
    Selects sh c i ↔ c.length = sh.length ∧ (sh.zip c).mapM (fun p => wrapIdx p.1 p.2) = some i
  | [], [], i => by cases i <;> simp [Selects]
  | [], _ :: _, _ => by simp [Selects]
  | _ :: _, [], i => by cases i <;> simp [Selects]
  | n :: sh, z :: c, [] => by
    rw [mapM_some]; simp [Selects]
  | n :: sh, z :: c, k :: i => by
    have ih := selects_iff (sh := sh) (c := c) (i := i)
    rw [mapM_some] at ih ⊢
    simp only [Selects, ih, List.zip_cons_cons, List.forall₂_cons, wrapIdx_eq, List.length_cons, Nat.add_right_cancel_iff]
    tauto

theorem _root_.TTS.Selects.inR : ∀ {sh : List ℕ} {c : List ℤ} {i : List ℕ}, Selects sh c i → InR sh i
  | [], [], [], _ => trivial
  | _ :: _, _ :: _, _ :: _, ⟨h1, _, h⟩ => ⟨h1, h.inR⟩

/-! ### CP tensors -/

section
variable [CommSemiring K]

theorem cp_mapM (X : CP K) (c : List ℤ) :
    ((X.cores.zip c).mapM fun p => wrapIdx (p.1.dim 0) p.2)
      = (X.shape.zip c).mapM fun p => wrapIdx p.1 p.2 := by
  have : X.shape.zip c = (X.cores.zip c).map fun p => (p.1.dim 0, p.2) := by
    rw [CP.shape, List.zip_map_left]
    rfl
  rw [this, List.mapM_map]
  rfl

/-- **C89, CP tensors.** With one row of indices per mode, `gather` is numpy's indexing of the dense tensor, negative
indices included, and raises `IndexError` exactly when that does. -/
theorem C89_cp (X : CP K) (hX : X.Valid) (cols : List (List ℤ)) (hc : ∀ c ∈ cols, c.length = X.shape.length) :
    (∀ is, List.Forall₂ (Selects X.shape) cols is →
      X.gatherZ X.shape.length cols = .ok (is.map fun i => X.toNumpy.get i)) ∧
    ((∃ c ∈ cols, ∀ i, ¬ Selects X.shape c i) → X.gatherZ X.shape.length cols = .error .indexError) := by
  have h0 : X.shape.length ≠ 0 := by
    simp [CP.shape, hX.1]
  constructor
  · intro is h
    unfold CP.gatherZ
    rw [if_neg h0]
    have e : (cols.mapM fun c => (X.cores.zip c).mapM fun p => wrapIdx (p.1.dim 0) p.2) = some is := by
      rw [mapM_some]
      exact h.imp fun c i hi => by rw [cp_mapM]; exact (selects_iff.1 hi).2
    rw [e]
    show Except.ok (X.gather is) = _
    rw [CP.gather_eq X is fun i hi => ?_]
    · exact congrArg _ (List.map_congr_left fun i _ => (CP.toNumpy_get hX i).symm)
    · obtain ⟨c, hc⟩ := forall₂_right h hi
      exact hc.inR
  · rintro ⟨c, hc', hn⟩
    unfold CP.gatherZ
    rw [if_neg h0, mapM_none _ hc' fun i hi => hn i (selects_iff.2 ⟨hc c hc', by rw [← cp_mapM]; exact hi⟩)]

/-- With more rows than modes the additional rows are ignored. -/
theorem C89_cp_long (X : CP K) (hX : X.Valid) (m : ℕ) (hm : X.shape.length ≤ m) (cols : List (List ℤ)) :
    X.gatherZ m cols = X.gatherZ X.shape.length (cols.map fun c => c.take X.shape.length) := by
  have h0 : X.shape.length ≠ 0 := by
    simp [CP.shape, hX.1]
  unfold CP.gatherZ
  rw [if_neg (by omega), if_neg h0, List.mapM_map]
  have : ∀ c : List ℤ, X.cores.zip (c.take X.shape.length) = X.cores.zip c := by
    intro c
    rw [CP.shape, List.length_map, zip_take_length]
  simp [this, Function.comp_def]

/-- With fewer rows than modes there is no error: the remaining factors are left out of the product, which is the value
of another tensor, the one made of the first factors. -/
theorem C89_cp_short (X : CP K) (m : ℕ) (h0 : 0 < m) (cols : List (List ℤ)) (hc : ∀ c ∈ cols, c.length = m)
    (hm : m < X.shape.length) (is : List (List ℕ)) (h : List.Forall₂ (Selects (X.shape.take m)) cols is) :
    X.gatherZ m cols = .ok (is.map fun i => cpEntry ⟨X.cores.take m⟩ i) := by
  have hl : X.shape.length = X.cores.length := by simp [CP.shape]
  unfold CP.gatherZ
  rw [if_neg (by omega)]
  have e : (cols.mapM fun c => (X.cores.zip c).mapM fun p => wrapIdx (p.1.dim 0) p.2) = some is := by
    rw [mapM_some]
    refine h.imp fun c i hi => ?_
    have h1 := selects_iff.1 hi
    have h2 : c.length = m := by rw [h1.1, List.length_take]; omega
    rw [cp_mapM, ← take_zip_length, h2]
    exact h1.2
  rw [e]
  have hr : (⟨X.cores.take m⟩ : CP K).rank = X.rank := by
    obtain ⟨_ | ⟨C, Cs⟩⟩ := X
    · simp [CP.shape] at hm
    · obtain ⟨m, rfl⟩ : ∃ k, m = k + 1 := ⟨m - 1, by omega⟩
      rfl
  refine congrArg _ (List.map_congr_left fun i hi => ?_)
  obtain ⟨c, hc'⟩ := forall₂_right h hi
  have hil : i.length = m := by rw [hc'.inR.length, List.length_take]; omega
  rw [cpEntry, hr]
  refine sum_congr rfl fun r _ => ?_
  rw [← take_zip_length, hil, cp_gather_foldl r _ i 1 (by simp; omega), one_mul]

/-! ### Sparse tensors -/

omit [CommSemiring K] in
theorem ravelOk_iff {sh : List ℕ} {m : ℕ} {cols : List (List ℤ)} (hc : ∀ c ∈ cols, c.length = m) :
    ravelOk sh m cols = true ↔ m = sh.length ∧ (∀ k, (sh.drop k).prod < 2 ^ 63) ∧ ∀ c ∈ cols, ∃ i, IsIndex sh c i := by
  unfold ravelOk
  rw [Bool.and_eq_true, Bool.and_eq_true, decide_eq_true_eq, and_assoc]
  refine and_congr_right fun hm => and_congr ?_ ?_
  · simp only [List.all_eq_true, List.mem_range, decide_eq_true_eq]
    refine ⟨fun h k => ?_, fun h k _ => h k⟩
    by_cases hk : k < sh.length + 1
    · exact h k hk
    · rw [List.drop_eq_nil_of_le (by omega)]; norm_num
  · simp only [List.all_eq_true]
    refine forall₂_congr fun c hc' => ?_
    have hl : c.length = sh.length := by rw [hc c hc', hm]
    clear * - hl
    induction sh generalizing c with
    | nil =>
      cases c with
      | nil => simp [IsIndex]
      | cons => simp at hl
    | cons n sh ih =>
      cases c with
      | nil => simp at hl
      | cons z c =>
        have ih := ih c (by simpa using hl)
        simp only [List.zip_cons_cons, List.mem_cons, forall_eq_or_imp]
        rw [decide_eq_true_eq]
        refine (and_congr_right' ih).trans ?_
        constructor
        · rintro ⟨⟨h1, h2⟩, i, h3, rfl⟩
          exact ⟨z.toNat :: i, ⟨⟨by omega, h3⟩, by simp [h1]⟩⟩
        · rintro ⟨_ | ⟨k, i⟩, h1, h2⟩
          · exact h1.elim
          · simp only [List.map_cons, List.cons.injEq] at h2
            obtain ⟨rfl, rfl⟩ := h2
            exact ⟨⟨by omega, by have := h1.1; omega⟩, i, h1.2, rfl⟩

/-- **C89, sparse tensors.** `gather` returns the entries of the dense tensor if there is one row of indices per mode, all
indices are in range and the number of entries of the dense tensor is below `2 ^ 63`. -/
theorem C89_sparse (X : Sparse K) (hX : X.Valid) (hpos : ∀ n ∈ X.shape, 0 < n) (hbig : X.shape.prod < 2 ^ 63)
    (cols : List (List ℤ)) (is : List (List ℕ)) (h : List.Forall₂ (IsIndex X.shape) cols is) :
    X.gatherZ X.shape.length cols = .ok (is.map fun i => X.toNumpy.get i) := by
  have hc : ∀ c ∈ cols, c.length = X.shape.length := by
    intro c hc
    obtain ⟨i, hi, rfl⟩ := forall₂_left h hc
    rw [List.length_map, hi.length]
  have hdrop : ∀ k, (X.shape.drop k).prod < 2 ^ 63 := by
    intro k
    refine lt_of_le_of_lt ?_ hbig
    conv_rhs => rw [← List.take_append_drop k X.shape, List.prod_append]
    exact Nat.le_mul_of_pos_left _ (Nat.pos_of_ne_zero fun h0 => by
      rw [List.prod_eq_zero_iff] at h0
      exact absurd (hpos 0 (List.mem_of_mem_take h0)) (lt_irrefl 0))
  unfold Sparse.gatherZ
  rw [if_pos ((ravelOk_iff hc).2 ⟨rfl, hdrop, fun c hc => forall₂_left h hc⟩)]
  have e : (cols.map fun c => c.map Int.toNat) = is := by
    clear * - h
    induction h with
    | nil => rfl
    | cons h _ ih =>
      obtain ⟨-, rfl⟩ := h
      rw [List.map_cons, ih]
      congr 1
      rw [List.map_map]
      exact List.map_id'' (fun _ => rfl) _
  rw [e]
  exact congrArg _ (List.map_congr_left fun i hi => by
    obtain ⟨c, hc⟩ := forall₂_right h hi
    exact Sparse.dict_get hX hc.1)

/-- In every other case (a negative index, an index too large, the wrong number of rows, a tensor with `2 ^ 63` entries
or more) it raises `ValueError`. -/
theorem C89_sparse_reject (X : Sparse K) (m : ℕ) (cols : List (List ℤ)) (hc : ∀ c ∈ cols, c.length = m)
    (h : m ≠ X.shape.length ∨ 2 ^ 63 ≤ X.shape.prod ∨ ∃ c ∈ cols, ∀ i, ¬ IsIndex X.shape c i) :
    X.gatherZ m cols = .error .valueError := by
  unfold Sparse.gatherZ
  rw [if_neg]
  rw [ravelOk_iff hc]
  rintro ⟨h1, h2, h3⟩
  rcases h with h | h | ⟨c, h, h'⟩
  · exact h h1
  · have := h2 0
    rw [List.drop_zero] at this
    omega
  · obtain ⟨i, hi⟩ := h3 c h
    exact h' i hi

/-! ### Tensor trains -/

/-- An integer as a natural number that is no index of an axis of size at most `M` if the integer is negative. -/
def encZ (M : ℕ) (z : ℤ) : ℕ := if 0 ≤ z then z.toNat else M

omit [CommSemiring K] in
theorem encZ_eq {M j : ℕ} (hj : j < M) (z : ℤ) : encZ M z = j ↔ z = (j : ℤ) := by
  unfold encZ
  split <;> omega

omit [CommSemiring K] in
theorem encZ_cast {M : ℕ} : ∀ {sh : List ℕ} {l : List ℤ}, (∀ n ∈ sh, n ≤ M) → InR sh (l.map (encZ M)) →
    (l.map (encZ M)).map (fun (k : ℕ) => (k : ℤ)) = l
  | [], [], _, _ => rfl
  | n :: sh, z :: l, hM, ⟨h1, h2⟩ => by
    rw [List.map_cons, List.map_cons, encZ_cast (fun n hn => hM n (by simp [hn])) h2]
    congr 1
    exact ((encZ_eq (lt_of_lt_of_le h1 (hM n (by simp))) z).1 rfl).symm
  | [], _ :: _, _, h => h.elim
  | _ :: _, [], _, h => h.elim

theorem gatherStepZ_eq {m M : ℕ} {cols : List (List ℤ)} {idxs : List (List ℕ)} {result C : ND K} {i : ℕ} (hi : i < m)
    (hM : C.dim 1 ≤ M) (hl : idxs.length = cols.length)
    (h : ∀ n < cols.length, (idxs.getD n []).getD i 0 = encZ M ((cols.getD n []).getD i 0)) :
    TT.gatherStepZ m cols result (C, i) = .ok (TT.gatherStep idxs result (C, i)) := by
  unfold TT.gatherStepZ TT.gatherStep
  simp only
  by_cases h0 : C.dim 1 = 0
  · rw [if_pos h0, h0, hl]; rfl
  · rw [if_neg h0, if_neg (by omega), hl]
    refine congrArg _ ?_
    have key : ∀ (js : List ℕ) (N : ND K), N.shape = [cols.length, C.dim 2] → (∀ j ∈ js, j < C.dim 1) →
        js.foldl (fun next (j : ℕ) => ND.ofFn next.shape fun nr =>
          if (cols.getD (nr.getD 0 0) []).getD i 0 = (j : ℤ) then
            ∑ t ∈ range (result.dim 1), result.get [nr.getD 0 0, t] * C.get [t, j, nr.getD 1 0]
          else next.get nr) N
        = js.foldl (fun next (j : ℕ) => ND.ofFn next.shape fun nr =>
          if (idxs.getD (nr.getD 0 0) []).getD i 0 = j then
            ∑ t ∈ range (result.dim 1), result.get [nr.getD 0 0, t] * C.get [t, j, nr.getD 1 0]
          else next.get nr) N := by
      intro js
      induction js with
      | nil => intro N _ _; rfl
      | cons j js ih =>
        intro N hN hj
        rw [List.foldl_cons, List.foldl_cons]
        have e : (ND.ofFn N.shape fun nr =>
            if (cols.getD (nr.getD 0 0) []).getD i 0 = (j : ℤ) then
              ∑ t ∈ range (result.dim 1), result.get [nr.getD 0 0, t] * C.get [t, j, nr.getD 1 0]
            else N.get nr) = ND.ofFn N.shape fun nr =>
            if (idxs.getD (nr.getD 0 0) []).getD i 0 = j then
              ∑ t ∈ range (result.dim 1), result.get [nr.getD 0 0, t] * C.get [t, j, nr.getD 1 0]
            else N.get nr := by
          refine ND.ext' rfl fun nr hnr => ?_
          have hnr : InR N.shape nr := hnr
          rw [ND.ofFn_get hnr, ND.ofFn_get hnr]
          have hn : nr.getD 0 0 < cols.length := by
            rw [hN] at hnr
            match nr, hnr with
            | a :: _, ⟨ha, _⟩ => exact ha
          rw [h _ hn]
          refine if_congr ?_ rfl rfl
          rw [encZ_eq (lt_of_lt_of_le (hj j (by simp)) hM)]
        rw [e]
        exact ih _ hN fun j' h' => hj j' (by simp [h'])
    exact key _ _ rfl fun j hj => by simpa using hj

theorem gatherFoldZ_eq {m M : ℕ} {cols : List (List ℤ)} {idxs : List (List ℕ)} (hl : idxs.length = cols.length) :
    ∀ (Cs : List (ND K)) (k : ℕ) (result : ND K), k + Cs.length ≤ m → (∀ C ∈ Cs, C.dim 1 ≤ M) →
    (∀ i, k ≤ i → i < k + Cs.length → ∀ n < cols.length,
      (idxs.getD n []).getD i 0 = encZ M ((cols.getD n []).getD i 0)) →
    (Cs.zipIdx k).foldlM (TT.gatherStepZ m cols) result
      = (.ok ((Cs.zipIdx k).foldl (TT.gatherStep idxs) result) : Except PyErr (ND K))
  | [], _, _, _, _, _ => rfl
  | C :: Cs, k, result, hk, hM, h => by
    rw [List.length_cons] at hk
    rw [List.zipIdx_cons, List.foldlM_cons, List.foldl_cons,
      gatherStepZ_eq (M := M) (by omega) (hM C (by simp)) hl (fun n hn => h k le_rfl (by simp) n hn)]
    exact gatherFoldZ_eq hl Cs (k + 1) _ (by omega) (fun C hC => hM C (by simp [hC]))
      fun i h1 h2 => h i (by omega) (by simp; omega)

/-- The natural numbers with which `gather` is called when `k` is selected in the first mode. -/
def encCol (M d : ℕ) (c : List ℤ) (k : ℕ) : List ℕ := k :: ((c.take d).drop 1).map (encZ M)

/-- **C89, tensor trains.** With at least one row of indices per mode (more are ignored), `gather` raises `IndexError` if and
only if the index of the first mode is out of numpy's range; negative indices of the first mode count from the end, but an
index of another mode that is negative or too large makes the value a silent zero. -/
theorem C89_tt (X : TT K) (hX : X.Valid) (m : ℕ) (hm : X.shape.length ≤ m) (cols : List (List ℤ))
    (hc : ∀ c ∈ cols, c.length = m) :
    ((∀ c ∈ cols, ∃ k, Selects (X.shape.take 1) (c.take 1) [k]) → ∃ vs, X.gatherZ m cols = .ok vs ∧
      List.Forall₂ (fun c v => ∃ k, Selects (X.shape.take 1) (c.take 1) [k] ∧
        (∀ i, IsIndex (X.shape.drop 1) ((c.take X.shape.length).drop 1) i → v = X.toNumpy.get (k :: i)) ∧
        ((∀ i, ¬ IsIndex (X.shape.drop 1) ((c.take X.shape.length).drop 1) i) → v = 0)) cols vs) ∧
    ((∃ c ∈ cols, ∀ k, ¬ Selects (X.shape.take 1) (c.take 1) [k]) → X.gatherZ m cols = .error .indexError) := by
  obtain ⟨cores⟩ := X
  obtain ⟨hne, hch⟩ := hX
  match cores, hne, hch with
  | C :: Cs, _, ⟨n, t, hC, hCs⟩ =>
    have hX : (⟨C :: Cs⟩ : TT K).Valid := ⟨by simp, ⟨n, t, hC, hCs⟩⟩
    have hn : C.dim 1 = n := by simp [ND.dim, hC]
    have hM0 : (C.reshape C.shape.tail).dim 0 = n := by simp [ND.dim, hC]
    have hMd : (C.reshape C.shape.tail).dim 1 = t := by simp [ND.dim, hC]
    have hsl : (⟨C :: Cs⟩ : TT K).shape.length = Cs.length + 1 := by simp [TT.shape]
    have hs1 : (⟨C :: Cs⟩ : TT K).shape = n :: Cs.map fun C => C.dim 1 := by simp [TT.shape, hn]
    have hm0 : m ≠ 0 := by omega
    have hsel : ∀ c ∈ cols, ∀ k, Selects ((⟨C :: Cs⟩ : TT K).shape.take 1) (c.take 1) [k]
        ↔ wrapIdx n (c.getD 0 0) = some k := by
      intro c hcm k
      have := hc c hcm
      match c, this with
      | z :: c, _ =>
        rw [hs1, wrapIdx_eq]
        simp [Selects]
      | [], h => exact absurd h.symm hm0
    constructor
    · intro hall
      obtain ⟨ks, hks⟩ : ∃ ks, cols.mapM (fun c => wrapIdx n (c.getD 0 0)) = some ks := by
        cases e : cols.mapM (fun c => wrapIdx n (c.getD 0 0)) with
        | some ks => exact ⟨ks, rfl⟩
        | none =>
          exfalso
          have : ∀ (cs : List (List ℤ)), (∀ c ∈ cs, ∃ k, wrapIdx n (c.getD 0 0) = some k) →
              cs.mapM (fun c => wrapIdx n (c.getD 0 0)) ≠ none := by
            intro cs
            induction cs with
            | nil => simp
            | cons c cs ih =>
              intro h
              obtain ⟨k, hk⟩ := h c (by simp)
              have := ih fun c hc => h c (by simp [hc])
              obtain ⟨ks, hks⟩ := Option.ne_none_iff_exists'.1 this
              rw [List.mapM_cons, hk, hks]
              simp
          exact this cols (fun c hcm => by
            obtain ⟨k, hk⟩ := hall c hcm
            exact ⟨k, (hsel c hcm k).1 hk⟩) e
      set M := ((⟨C :: Cs⟩ : TT K).shape).sum with hMdef
      set d := Cs.length + 1 with hd
      have hf := (mapM_some _ _ _).1 hks
      have hkl : cols.length = ks.length := hf.length_eq
      set idxs := List.zipWith (encCol M d) cols ks with hidx
      have hil : idxs.length = cols.length := by rw [hidx, List.length_zipWith]; omega
      have hget : ∀ j (hj : j < cols.length), idxs.getD j [] = encCol M d (cols[j]) (ks[j]'(hkl ▸ hj)) := by
        intro j hj
        rw [List.getD_eq_getElem _ _ (by omega)]
        simp [hidx]
      have hcl : ∀ j (hj : j < cols.length), (cols[j]).length = m := fun j hj => hc _ (List.getElem_mem hj)
      have hlen : ∀ i ∈ idxs, i.length = (C :: Cs).length := by
        intro i hi
        obtain ⟨j, hj, rfl⟩ := List.getElem_of_mem hi
        have := hget j (by omega)
        rw [List.getD_eq_getElem _ _ hj] at this
        rw [this]
        simp only [encCol, List.length_cons, List.length_map, List.length_drop, List.length_take, hcl j (by omega)]
        omega
      have eG : (⟨C :: Cs⟩ : TT K).gatherZ m cols = .ok ((⟨C :: Cs⟩ : TT K).gather idxs) := by
        unfold TT.gatherZ
        rw [if_neg hm0]
        simp only [hM0, hks]
        have e1 : (ND.ofFn [cols.length, (C.reshape C.shape.tail).dim 1] fun nr =>
              (C.reshape C.shape.tail).get [ks.getD (nr.getD 0 0) 0, nr.getD 1 0])
            = ND.ofFn [idxs.length, (C.reshape C.shape.tail).dim 1] fun nr =>
              (C.reshape C.shape.tail).get [(idxs.getD (nr.getD 0 0) []).getD 0 0, nr.getD 1 0] := by
          rw [hil]
          refine ND.ext' rfl fun nr hnr => ?_
          have hnr : InR [cols.length, (C.reshape C.shape.tail).dim 1] nr := hnr
          rw [ND.ofFn_get hnr, ND.ofFn_get hnr]
          have hj : nr.getD 0 0 < cols.length := by
            match nr, hnr with
            | a :: _, ⟨ha, _⟩ => exact ha
          rw [hget _ hj, List.getD_eq_getElem _ _ (hkl ▸ hj)]
          rfl
        rw [e1, gatherFoldZ_eq (M := M) hil Cs 1 _ (by omega) ?_ ?_]
        · rfl
        · intro D hD
          rw [hMdef, hs1]
          have : D.dim 1 ≤ (Cs.map fun C => C.dim 1).sum := List.single_le_sum (by simp) _ (List.mem_map_of_mem hD)
          simp; omega
        · intro i h1 h2 j hj
          rw [hget j hj, List.getD_eq_getElem _ _ hj]
          obtain ⟨i, rfl⟩ : ∃ k, i = k + 1 := ⟨i - 1, by omega⟩
          have hlt : i < ((cols[j].take d).drop 1).length := by
            rw [List.length_drop, List.length_take, hcl j hj]; omega
          rw [encCol, List.getD_cons_succ, List.getD_eq_getElem _ _ (by simpa using hlt),
            List.getD_eq_getElem _ _ (by rw [hcl j hj]; omega)]
          simp
      refine ⟨_, eG, ?_⟩
      rw [TT.gather_len hX idxs hlen]
      rw [List.forall₂_iff_get]
      refine ⟨by rw [List.length_map, hil], fun j hj hj' => ?_⟩
      have hj2 : j < idxs.length := by omega
      have e2 : (idxs.map fun i => ttEntry ⟨C :: Cs⟩ i).get ⟨j, hj'⟩
          = (⟨C :: Cs⟩ : TT K).toNumpy.get (encCol M d (cols[j]) (ks[j]'(hkl ▸ hj))) := by
        rw [← hget j hj, List.getD_eq_getElem _ _ hj2, TT.toNumpy_get hX]
        simp
      rw [e2]
      have hk : wrapIdx n ((cols[j]).getD 0 0) = some (ks[j]'(hkl ▸ hj)) := by
        have := (List.forall₂_iff_get.1 hf).2 j hj (hkl ▸ hj)
        simpa using this
      refine ⟨ks[j]'(hkl ▸ hj), (hsel _ (List.getElem_mem hj) _).2 hk, ?_, ?_⟩
      · rintro i ⟨hi, hci⟩
        have hci : ((cols[j].take d).drop 1) = i.map fun (k : ℕ) => (k : ℤ) := by
          rw [hsl] at hci; exact hci
        rw [encCol, hci, List.map_map]
        congr 2
        exact (List.map_id'' (fun k => by simp [encZ]) i)
      · intro hno
        refine (⟨C :: Cs⟩ : TT K).toNumpy.supp _ fun hin => ?_
        rw [TT.toNumpy_shape hX, hs1] at hin
        have hin : InR (Cs.map fun C => C.dim 1) (((cols[j].take d).drop 1).map (encZ M)) := hin.2
        refine hno (((cols[j].take d).drop 1).map (encZ M)) ⟨by rw [hs1]; exact hin, ?_⟩
        show (cols[j].take (⟨C :: Cs⟩ : TT K).shape.length).drop 1 = _
        rw [hsl]
        refine (encZ_cast (M := M) (fun x hx => ?_) hin).symm
        rw [hMdef, hs1, List.sum_cons]
        exact (List.single_le_sum (by simp) _ hx).trans (Nat.le_add_left _ _)
    · rintro ⟨c, hcm, hno⟩
      unfold TT.gatherZ
      rw [if_neg hm0]
      simp only [hM0]
      rw [mapM_none _ hcm fun k hk => hno k ((hsel c hcm k).2 hk)]

/-- With fewer rows than modes it raises `IndexError`. -/
theorem C89_tt_short (X : TT K) (hpos : ∀ n ∈ X.shape, 0 < n) (m : ℕ) (h0 : 0 < m) (hm : m < X.shape.length)
    (cols : List (List ℤ)) : X.gatherZ m cols = .error .indexError := by
  have key : ∀ (Cs : List (ND K)) (k : ℕ) (result : ND K), k ≤ m → m < k + Cs.length → (∀ C ∈ Cs, 0 < C.dim 1) →
      (Cs.zipIdx k).foldlM (TT.gatherStepZ m cols) result = (.error .indexError : Except PyErr (ND K)) := by
    intro Cs
    induction Cs with
    | nil => intro k result h1 h2; simp at h2; omega
    | cons C Cs ih =>
      intro k result h1 h2 h3
      rw [List.zipIdx_cons, List.foldlM_cons]
      have hC : C.dim 1 ≠ 0 := (h3 C (by simp)).ne'
      by_cases hk : m ≤ k
      · have : TT.gatherStepZ m cols result (C, k) = .error .indexError := by
          unfold TT.gatherStepZ
          simp only [if_neg hC, if_pos hk]
        rw [this]; rfl
      · have : ∃ R, TT.gatherStepZ m cols result (C, k) = .ok R := by
          unfold TT.gatherStepZ
          simp only [if_neg hC, if_neg hk]
          exact ⟨_, rfl⟩
        obtain ⟨R, hR⟩ := this
        rw [hR]
        exact ih (k + 1) R (by omega) (by simp at h2; omega) fun C hC => h3 C (by simp [hC])
  obtain ⟨cores⟩ := X
  unfold TT.gatherZ
  rw [if_neg (by omega)]
  match cores, hpos, hm with
  | [], _, hm => simp [TT.shape] at hm
  | C :: Cs, hpos, hm =>
    simp only
    split
    · rfl
    · rw [key Cs 1 _ (by omega) (by simp [TT.shape] at hm; omega) fun D hD => hpos _ (by
        simp only [TT.shape, List.map_cons, List.mem_cons]
        exact .inr (List.mem_map_of_mem hD))]
      rfl

/-- Without any row of indices every format raises. -/
theorem C89_no_rows (X : TT K) (Y : CP K) (Z : Sparse K) (hZ : Z.shape ≠ []) (cols : List (List ℤ)) :
    X.gatherZ 0 cols = .error .valueError ∧ Y.gatherZ 0 cols = .error .indexError ∧
      Z.gatherZ 0 cols = .error .valueError := by
  refine ⟨by simp [TT.gatherZ], by simp [CP.gatherZ], ?_⟩
  have : (0 : ℕ) ≠ Z.shape.length := fun h => hZ (List.length_eq_zero_iff.1 h.symm)
  simp [Sparse.gatherZ, ravelOk, this]

end

/-! ### Examples and finding -/

/-- the tensor of shape `2 × 3` whose last entry is `1`, as a tensor train and as a CP tensor -/
def g89 : TT ℤ := ⟨[ND.ofFn [1, 2, 1] fun i => i.getD 1 0, ND.ofFn [1, 3, 1] fun i => i.getD 1 0 - 1]⟩
def h89 : CP ℤ := ⟨[ND.ofFn [2, 1] fun i => i.getD 0 0, ND.ofFn [3, 1] fun i => i.getD 0 0 - 1]⟩
def s89 : Sparse ℤ := ⟨[2, 3], [([1, 2], 1), ([1, 0], -1)]⟩

/-- Finding: for one and the same tensor and the index `(1, -1)` a CP tensor returns the last entry of the row, a tensor
train silently returns zero and a sparse tensor raises `ValueError`; with a single row of indices the CP tensor returns
a number although it has two modes. -/
theorem C89_formats_differ : g89.Valid ∧ h89.Valid ∧ s89.Valid ∧ g89.toNumpy = h89.toNumpy ∧ s89.toNumpy = h89.toNumpy ∧
    h89.gatherZ 2 [[1, -1]] = .ok [1] ∧ g89.gatherZ 2 [[1, -1]] = .ok [0] ∧ g89.gatherZ 2 [[-1, 2]] = .ok [1] ∧
    g89.gatherZ 2 [[1, 7]] = .ok [0] ∧ h89.gatherZ 2 [[1, 7]] = .error .indexError ∧
    s89.gatherZ 2 [[1, -1]] = .error .valueError ∧ h89.gatherZ 1 [[1]] = .ok [1] := by
  refine ⟨⟨by simp [g89], 2, 1, rfl, 3, 1, rfl, rfl⟩, ⟨by simp [h89], fun C hC => ?_⟩, fun e he => ?_, ?_, ?_,
    by decide, by decide, by decide, by decide, by decide, by decide, by decide⟩
  · simp only [h89, List.mem_cons, List.not_mem_nil, or_false] at hC
    rcases hC with rfl | rfl
    · exact ⟨2, rfl⟩
    · exact ⟨3, rfl⟩
  · simp only [s89, List.mem_cons, List.not_mem_nil, or_false] at he
    rcases he with rfl | rfl <;> simp [s89]
  · refine ND.ext' (by decide) fun i hi => ?_
    have hi : InR [2, 3] i := hi
    match i, hi with
    | [a, b], ⟨ha, hb, _⟩ => interval_cases a <;> interval_cases b <;> decide
  · refine ND.ext' (by decide) fun i hi => ?_
    have hi : InR [2, 3] i := hi
    match i, hi with
    | [a, b], ⟨ha, hb, _⟩ => interval_cases a <;> interval_cases b <;> decide

/-- The hypotheses of the theorems above are met: indices that select entries, counting from the end or not, and indices
that select nothing. -/
example : List.Forall₂ (Selects h89.shape) [[1, -1], [-2, 0]] [[1, 2], [0, 0]] ∧
    List.Forall₂ (IsIndex s89.shape) [[1, 2], [0, 1]] [[1, 2], [0, 1]] ∧ (∀ i, ¬ Selects h89.shape [1, 7] i) ∧
    (∀ i, ¬ IsIndex s89.shape [1, -1] i) ∧ List.Forall₂ (Selects (h89.shape.take 1)) [[1]] [[1]] := by
  have e : h89.shape = [2, 3] := rfl
  have e' : s89.shape = [2, 3] := rfl
  rw [e, e']
  refine ⟨by simp [Selects], by simp [IsIndex], ?_, ?_, by simp [Selects]⟩
  · rintro (_ | ⟨a, _ | ⟨b, _ | ⟨c, i⟩⟩⟩) h
    · exact h
    · exact h.2.2
    · have h1 := h.2.2
      have : (7 : ℤ) = b ∨ (7 : ℤ) = (b : ℤ) - 3 := h1.2.1
      have := h1.1
      omega
    · exact h.2.2.2.2
  · rintro (_ | ⟨a, _ | ⟨b, _ | ⟨c, i⟩⟩⟩) ⟨h, h2⟩
    · simp at h2
    · simp at h2
    · simp at h2
    · simp at h2

end TTS.Props
