import Verif.Proofs.ApproxRoundSum

/-!
# C98: `round_tt_sum` with inexact linear algebra
-/

namespace TTS.Props

open Finset Spec

/-- **C98.** With QR factorisations, singular value decompositions and least squares solutions of any relative accuracy `ε`,
every rounding method returns a well-formed tensor train of the same shape, and its ranks are at most the trimmed maximal
ranks (except for `pairwise` with a single summand); those of the sketches are exactly the (twice) trimmed maximal ranks. -/
theorem C98 {env : Env ℝ} {la : LinAlg} {ε : ℝ} (hla : RoundApprox env la ε) (ts : List (TT ℝ)) (s : List ℕ) (h : TTList ts s)
    (hd : 2 ≤ s.length) (a : RankArg) (ha : RankOk s a) (eps : Option ℝ) (he : 0 ≤ eps.getD 0) (m : RoundMode) (f : ℝ)
    (hm : m = .exact ∨ m = .pairwise ∨ m = .sketch ∨ m = .orthSketch)
    (hf : m = .sketch ∨ m = .orthSketch → 1 < f) :
    ∃ Y, roundTTSum env la ts a eps m f = .ok (.tt Y) ∧ Y.Valid ∧ Y.Pos ∧ Y.shape = s ∧
      (m = .pairwise → ts.length ≠ 1 → RanksLe Y.rank (trimRanks s (askedRanks s a))) ∧
      (m ≠ .pairwise → RanksLe Y.rank (trimRanks s (askedRanks s a))) ∧
      (m = .sketch ∨ m = .orthSketch → Y.rank = trimRanks s (trimRanks s (askedRanks s a))) := by
  have hs := ttSum_shape h
  have hp : processTTRank a s true = .ok (trimRanks s (askedRanks s a)) := by rw [process_asked, if_pos ha.len]
  have p1 := shape_pos_of_list h
  have p2 := asked_pos p1 ha
  have hl := trim_len ha
  have p3 : ∀ r ∈ trimRanks s (trimRanks s (askedRanks s a)), 0 < r :=
    asked_pos (a := .seq (trimRanks s (askedRanks s a))) p1 ⟨hl, p2⟩
  rcases hm with rfl | rfl | rfl | rfl
  · cases ts with
    | nil => exact absurd rfl h.ne
    | cons t ts =>
      obtain ⟨b1, -⟩ := foldl_add hd ts t (h.each t (by simp)) fun u hu => h.each u (by simp [hu])
      obtain ⟨Y, y1, y2, y3, -⟩ := round_good_approx hla.nonneg hla.qr hla.svd b1 eps he ha
      exact ⟨Y, by simp only [roundTTSum, addAll, Except.andThen, y1]; rfl, y2.1, y2.2.1, y2.2.2,
        (fun h => by cases h), fun _ => y3, fun h => by rcases h with h | h <;> cases h⟩
  · cases ts with
    | nil => exact absurd rfl h.ne
    | cons t ts =>
      obtain ⟨Y, y1, y2, y3⟩ := pairwise_good_approx hla.nonneg hla.qr hla.svd hd eps he ha ts t (h.each t (by simp))
        fun u hu => h.each u (by simp [hu])
      refine ⟨Y, by simp only [roundTTSum, addRounding, y1]; rfl, y2.1, y2.2.1, y2.2.2, fun _ hn => y3 (.inl ?_),
        fun h => absurd rfl h, fun h => by rcases h with h | h <;> cases h⟩
      rintro rfl
      exact hn rfl
  · obtain ⟨S, Y, e, y1, y2, y3, y4, -⟩ := sketch_good_approx hla.nonneg hla.lstsq h hd hl p2 (hf (.inl rfl))
    refine ⟨Y, ?_, y2, pos_of_rank p1 y3 (by rw [y4]; exact p3), y3, (fun h => by cases h), fun _ => ?_, fun _ => y4⟩
    · simp only [roundTTSum, hs, hp, Except.andThen, e, y1]; rfl
    · rw [y4]; exact trim_trim_le hl
  · obtain ⟨Y, l, r, e, y2, y3, y4, -⟩ := orth_good_approx hla.nonneg hla.lstsq hla.qrE h hd hl p2 (hf (.inr rfl))
    refine ⟨Y, ?_, y2, pos_of_rank p1 y3 (by rw [y4]; exact p3), y3, (fun h => by cases h), fun _ => ?_, fun _ => y4⟩
    · simp only [roundTTSum, hs, hp, Except.andThen, e]; rfl
    · rw [y4]; exact trim_trim_le hl

/-- **C98, accuracy of `exact`.** `X` is the unrounded sum as a tensor train. -/
theorem C98_exact {env : Env ℝ} {la : LinAlg} {ε : ℝ} (hla : RoundApprox env la ε) (ts : List (TT ℝ)) (s : List ℕ)
    (h : TTList ts s) (hd : 2 ≤ s.length) (a : RankArg) (ha : RankOk s a) (eps : Option ℝ) (he : 0 ≤ eps.getD 0) (f : ℝ) :
    ∃ X Y, addAll ts = .ok X ∧ X.toNumpy = (ttSum ts).toNumpy ∧ roundTTSum env la ts a eps .exact f = .ok (.tt Y) ∧
      ∀ Z : TT ℝ, Z.Valid → Z.shape = s → RanksLe Z.rank (askedRanks s a) →
        frobD (ttSum ts).toNumpy Y.toNumpy ≤ roundBound ε (s.length - 1) (eps.getD 0) ((trimRanks s (askedRanks s a)).sum : ℝ)
          (frobD (ttSum ts).toNumpy Z.toNumpy) (frobN (ttSum ts).toNumpy) X.coreNorms := by
  have hn := ttSum_toNumpy_shape h
  have hg := ttSum_get h
  cases ts with
  | nil => exact absurd rfl h.ne
  | cons t ts =>
    obtain ⟨b1, b2, -⟩ := foldl_add hd ts t (h.each t (by simp)) fun u hu => h.each u (by simp [hu])
    have e : (ts.foldl TT.add t).toNumpy = (ttSum (t :: ts)).toNumpy :=
      ND.ext' (by rw [TT.toNumpy_shape b1.1, b1.2.2, hn]) fun i _ => by rw [b2, hg]; simp
    obtain ⟨Y, y1, y2, y3, y4⟩ := round_good_approx hla.nonneg hla.qr hla.svd b1 eps he ha
    rw [e] at y4
    exact ⟨_, Y, rfl, e, by simp only [roundTTSum, addAll, Except.andThen, y1]; rfl, y4⟩

theorem pairwise_err {la : LinAlg} {ε : ℝ} (hε : 0 ≤ ε) (hq : la.QRApprox ε) (hs : la.SVDApprox ε) {s : List ℕ}
    (hd : 2 ≤ s.length) (eps : Option ℝ) (he : 0 ≤ eps.getD 0) {a : RankArg} (ha : RankOk s a) : ∀ (ts : List (TT ℝ)) (t : TT ℝ),
    t.Valid ∧ t.Pos ∧ t.shape = s → (∀ u ∈ ts, u.Valid ∧ u.Pos ∧ u.shape = s) →
    ∃ (W : ℕ → TT ℝ), ts.foldlM (fun acc t => (acc.add t).round la eps (some a) false) t = .ok (W ts.length) ∧
      W 0 = t ∧ (∀ k < ts.length, ((W k).add (ts.getD k ⟨[]⟩)).round la eps (some a) false = .ok (W (k + 1))) ∧
      (∀ k ≤ ts.length, (W k).Valid ∧ (W k).Pos ∧ (W k).shape = s) ∧
      frobD (ts.foldl TT.add t).toNumpy (W ts.length).toNumpy
        ≤ ∑ k ∈ range ts.length, frobD ((W k).add (ts.getD k ⟨[]⟩)).toNumpy (W (k + 1)).toNumpy
  | [], t, ht, _ => ⟨fun _ => t, rfl, rfl, fun k hk => by simp at hk, fun _ _ => ht, by simp [frobD_self]⟩
  | u :: us, t, ht, h => by
    have hus : ∀ v ∈ us, v.Valid ∧ v.Pos ∧ v.shape = s := fun v hv => h v (by simp [hv])
    obtain ⟨b1, -⟩ := foldl_add hd [u] t ht fun v hv => h v (by simp at hv; simp [hv])
    have b1 : (t.add u).Valid ∧ (t.add u).Pos ∧ (t.add u).shape = s := b1
    obtain ⟨Z, z1, z2, z3, -⟩ := round_good_approx hε hq hs b1 eps he ha
    obtain ⟨W, w1, w2, w3, w4, w5⟩ := pairwise_err hε hq hs hd eps he ha us Z z2 hus
    refine ⟨fun k => if k = 0 then t else W (k - 1), ?_, rfl, ?_, ?_, ?_⟩
    · rw [List.foldlM_cons]
      show ((t.add u).round la eps (some a) false).bind _ = _
      rw [z1]
      exact w1
    · intro k hk
      cases k with
      | zero =>
        show (t.add u).round la eps (some a) false = .ok (W 0)
        rw [z1, w2]
      | succ k => exact w3 k (by simpa using hk)
    · intro k hk
      cases k with
      | zero => exact ht
      | succ k => exact w4 k (by simpa using hk)
    · obtain ⟨c1, c2, -⟩ := foldl_add hd us (t.add u) b1 hus
      obtain ⟨d1, d2, -⟩ := foldl_add hd us Z z2 hus
      show frobD (us.foldl TT.add (t.add u)).toNumpy (W us.length).toNumpy ≤ _
      rw [List.length_cons, sum_range_succ']
      show _ ≤ ∑ k ∈ range us.length, frobD ((W k).add (us.getD k ⟨[]⟩)).toNumpy (W (k + 1)).toNumpy
        + frobD (t.add u).toNumpy (W 0).toNumpy
      have sh : (us.foldl TT.add Z).toNumpy.shape = (us.foldl TT.add (t.add u)).toNumpy.shape := by
        rw [TT.toNumpy_shape c1.1, TT.toNumpy_shape d1.1, c1.2.2, d1.2.2]
      refine (frobD_triangle sh).trans ?_
      rw [add_comm]
      refine add_le_add w5 (le_of_eq ?_)
      rw [w2]
      unfold frobD distSq
      rw [TT.toNumpy_shape c1.1, c1.2.2, TT.toNumpy_shape b1.1, b1.2.2]
      congr 1
      exact sumIdx_congr fun i _ => by rw [c2, d2]; ring

/-- **C98, accuracy of `pairwise`.** The error is at most the sum of the errors of the single roundings; `W k` is the result
after `k` of them. -/
theorem C98_pairwise {env : Env ℝ} {la : LinAlg} {ε : ℝ} (hla : RoundApprox env la ε) (t : TT ℝ) (ts : List (TT ℝ)) (s : List ℕ)
    (h : TTList (t :: ts) s) (hd : 2 ≤ s.length) (a : RankArg) (ha : RankOk s a) (eps : Option ℝ) (he : 0 ≤ eps.getD 0) (f : ℝ) :
    ∃ W : ℕ → TT ℝ, roundTTSum env la (t :: ts) a eps .pairwise f = .ok (.tt (W ts.length)) ∧ W 0 = t ∧
      (∀ k < ts.length, ((W k).add (ts.getD k ⟨[]⟩)).round la eps (some a) false = .ok (W (k + 1))) ∧
      (∀ k < ts.length, ∀ Z : TT ℝ, Z.Valid → Z.shape = s → RanksLe Z.rank (askedRanks s a) →
        frobD ((W k).add (ts.getD k ⟨[]⟩)).toNumpy (W (k + 1)).toNumpy
          ≤ roundBound ε (s.length - 1) (eps.getD 0) ((trimRanks s (askedRanks s a)).sum : ℝ)
            (frobD ((W k).add (ts.getD k ⟨[]⟩)).toNumpy Z.toNumpy) (frobN ((W k).add (ts.getD k ⟨[]⟩)).toNumpy)
            ((W k).add (ts.getD k ⟨[]⟩)).coreNorms) ∧
      frobD (ttSum (t :: ts)).toNumpy (W ts.length).toNumpy
        ≤ ∑ k ∈ range ts.length, frobD ((W k).add (ts.getD k ⟨[]⟩)).toNumpy (W (k + 1)).toNumpy := by
  have ht := h.each t (by simp)
  have hts : ∀ u ∈ ts, u.Valid ∧ u.Pos ∧ u.shape = s := fun u hu => h.each u (by simp [hu])
  have hn := ttSum_toNumpy_shape h
  have hg := ttSum_get h
  obtain ⟨b1, b2, -⟩ := foldl_add hd ts t ht hts
  have e : (ts.foldl TT.add t).toNumpy = (ttSum (t :: ts)).toNumpy :=
    ND.ext' (by rw [TT.toNumpy_shape b1.1, b1.2.2, hn]) fun i _ => by rw [b2, hg]; simp
  obtain ⟨W, w1, w2, w3, w4, w5⟩ := pairwise_err hla.nonneg hla.qr hla.svd hd eps he ha ts t ht hts
  refine ⟨W, by simp only [roundTTSum, addRounding, w1]; rfl, w2, w3, fun k hk => ?_, by rw [← e]; exact w5⟩
  have hk' : ts.getD k ⟨[]⟩ ∈ ts := by rw [List.getD_eq_getElem _ _ hk]; exact List.getElem_mem _
  obtain ⟨c1, -⟩ := foldl_add hd [ts.getD k ⟨[]⟩] (W k) (w4 k hk.le) fun v hv => by
    rw [List.mem_singleton] at hv; rw [hv]; exact hts _ hk'
  have c1 : ((W k).add (ts.getD k ⟨[]⟩)).Valid ∧ ((W k).add (ts.getD k ⟨[]⟩)).Pos ∧ ((W k).add (ts.getD k ⟨[]⟩)).shape = s := c1
  obtain ⟨Y, y1, -, -, y2⟩ := round_good_approx hla.nonneg hla.qr hla.svd c1 eps he ha
  rw [w3 k hk] at y1
  injection y1 with y1
  subst y1
  exact y2

/-- **C98, accuracy of the sketches.** The bounds of C96 and C97 for the sketch made from the sum. -/
theorem C98_sketch {env : Env ℝ} {la : LinAlg} {ε : ℝ} (hla : RoundApprox env la ε) (ts : List (TT ℝ)) (s : List ℕ)
    (h : TTList ts s) (hd : 2 ≤ s.length) (a : RankArg) (ha : RankOk s a) (eps : Option ℝ) (f : ℝ) (hf : 1 < f) :
    (∃ Y S, roundTTSum env la ts a eps .sketch f = .ok (.tt Y) ∧
      streamSketch env (ttSum ts) (.seq (trimRanks s (askedRanks s a))) (.seq (oversample f (trimRanks s (askedRanks s a)))) = .ok S ∧
      ∀ (B : ℕ → ℕ → List ℕ → ℝ) (Z : ℕ → ND ℝ), (∀ mu < s.length - 1,
          (Z mu).shape = [(1 :: S.leftRank).getD mu 0, s.getD mu 0, S.leftRank.getD mu 0]) →
        frobD (ttSum ts).toNumpy Y.toNumpy ≤ rightBound ε (ttSum ts).toNumpy (S.left.leftMats env) (S.right.rightMats env)
          S.leftRank S.rightRank S.sketch S.sketch Y.cores B Z) ∧
    ∃ Y l r, roundTTSum env la ts a eps .orthSketch f = .ok (.tt Y) ∧
      orthogonalSketch env (ttSum ts) (.seq (trimRanks s (askedRanks s a))) (.seq (oversample f (trimRanks s (askedRanks s a))))
        = .ok (Y, l, r) ∧
      ∀ (B : ℕ → ℕ → List ℕ → ℝ) (H : ℕ → List ℕ → ℕ → ℝ), frobD (ttSum ts).toNumpy Y.toNumpy
        ≤ orthBound ε (ttSum ts).toNumpy (l.leftMats env) (r.rightMats env) l.rank r.rank.reverse B H fun mu =>
          frobN (bondSolution env (ttSum ts).toNumpy (l.leftMats env) (r.rightMats env) l.rank r.rank.reverse Y mu) := by
  have hs := ttSum_shape h
  have hp : processTTRank a s true = .ok (trimRanks s (askedRanks s a)) := by rw [process_asked, if_pos ha.len]
  have p2 := asked_pos (shape_pos_of_list h) ha
  have hl := trim_len ha
  constructor
  · obtain ⟨S, Y, e, y1, -, -, -, -, -, y2⟩ := sketch_good_approx hla.nonneg hla.lstsq h hd hl p2 hf
    exact ⟨Y, S, by simp only [roundTTSum, hs, hp, Except.andThen, e, y1]; rfl, e, y2⟩
  · obtain ⟨Y, l, r, e, -, -, -, -, -, y2⟩ := orth_good_approx hla.nonneg hla.lstsq hla.qrE h hd hl p2 hf
    exact ⟨Y, l, r, by simp only [roundTTSum, hs, hp, Except.andThen, e]; rfl, e, y2⟩

/-! ### The hypotheses can be met -/

/-- inexact routines -/
theorem roundBad {ε : ℝ} (h0 : 0 ≤ ε) (h1 : ε ≤ 1) (env : Env ℝ) : RoundApprox (badBoth ε env) (badLa ε) ε :=
  ⟨h0, badLa_qr h0, badLa_svd h0 h1, badBoth_lstsq env h0, badBoth_qr env h0⟩

/-- Exact routines meet the hypothesis with `ε = 0`. -/
theorem C98_of_exact {env : Env ℝ} {la : LinAlg} (hq : la.QROk) (hs : la.SVDOk) (hQ : QRContract env)
    (hE : LstsqApproxContract env 0) : RoundApprox env la 0 :=
  ⟨le_rfl, approxQr_of_exact hq le_rfl, fun M m n hM => by
    have h := hs M m n hM
    exact ⟨h.shapeU, h.shapeV, M, _, _, hM, h, by rw [frobD_self]; simp, by rw [frobD_self], by rw [frobD_self]⟩, hE,
   approxQr_of_exact (la := ⟨env.qr, fun M => (M, [], M), fun M => (M, [], M)⟩) hQ le_rfl⟩

/-- `C98` and the accuracy theorems apply to three trains of ranks 2, 1 and 2 and every rounding method. -/
example (m : RoundMode) (h : m = .exact ∨ m = .pairwise ∨ m = .sketch ∨ m = .orthSketch) :
    ∃ Y, roundTTSum (badBoth (1 / 10 ^ 15) env8) (badLa (1 / 10 ^ 15)) [x9, z9, x9] (.seq [2, 1]) none m 2 = .ok (.tt Y) ∧
      Y.Valid ∧ Y.shape = [2, 3, 2] ∧ RanksLe Y.rank [2, 1] := by
  obtain ⟨Y, h1, h2, -, h3, h4, h5, -⟩ := C98 (roundBad (ε := 1 / 10 ^ 15) (by norm_num) (by norm_num) env8) _ _ list9 (by simp) (.seq [2, 1])
    ⟨by decide, by decide⟩ none le_rfl m 2 h (fun _ => by norm_num)
  refine ⟨Y, h1, h2, h3, ?_⟩
  by_cases hm : m = .pairwise
  · exact h4 hm (by decide)
  · exact h5 hm

end TTS.Props
