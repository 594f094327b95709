import Verif.Spec.Gmres
import Verif.Props.Round
import Verif.Props.Orth
import Verif.Props.Recover
import Verif.Props.LinMapSum

/-!
# C55: rounding sums of tensor trains
-/

namespace TTS.Props

open Finset Spec

theorem ranksOf_asked (s : List ℕ) (a : RankArg) : ranksOf a s.length = askedRanks s a := by cases a <;> rfl

theorem ttSum_shape {ts : List (TT ℝ)} {s : List ℕ} (h : TTList ts s) : (ttSum ts).shape = s := by
  obtain ⟨h1, h2⟩ := h
  cases ts with
  | nil => exact absurd rfl h1
  | cons t ts => exact (h2 t (by simp)).2.2

theorem ttSum_valid {ts : List (TT ℝ)} {s : List ℕ} (h : TTList ts s) : (ttSum ts).Valid := by
  have hs : (ts.headD ⟨[]⟩).shape = s := ttSum_shape h
  intro t ht
  obtain ⟨x, hx, rfl⟩ := List.mem_map.1 ht
  exact ⟨(h.each x hx).1, (h.each x hx).2.2.trans hs.symm⟩

theorem ttSum_nonEmpty {ts : List (TT ℝ)} {s : List ℕ} (h : TTList ts s) : (ttSum ts).NonEmpty := by
  show ts.map Leaf.tt ≠ []
  simpa using h.ne

theorem ttSum_distinct (ts : List (TT ℝ)) : (ttSum ts).Distinct := by
  intro t ht
  obtain ⟨x, -, rfl⟩ := List.mem_map.1 ht
  trivial

theorem ttSum_rightExact (ts : List (TT ℝ)) : ∀ t ∈ (ttSum ts).summands, t.RightExact := by
  intro t ht
  obtain ⟨x, -, rfl⟩ := List.mem_map.1 ht
  trivial

theorem ttSum_get {ts : List (TT ℝ)} {s : List ℕ} (h : TTList ts s) (k : List ℕ) :
    (ttSum ts).toNumpy.get k = (ts.map fun t => t.toNumpy.get k).sum := by
  have hs : (ts.headD ⟨[]⟩).shape = s := ttSum_shape h
  show (TSum.mk _ _).toNumpy.get k = _
  rw [hs]
  exact (tsum_tt_get s ts (fun t ht => ⟨(h.each t ht).1, (h.each t ht).2.2⟩) k).1

theorem ttSum_toNumpy_shape {ts : List (TT ℝ)} {s : List ℕ} (h : TTList ts s) : (ttSum ts).toNumpy.shape = s := by
  rw [Tensor.toNumpy_shape (ttSum_valid h), ttSum_shape h]

/-- Adding up with `add`. -/
theorem foldl_add {s : List ℕ} (hd : 2 ≤ s.length) : ∀ (ts : List (TT ℝ)) (t : TT ℝ),
    t.Valid ∧ t.Pos ∧ t.shape = s → (∀ u ∈ ts, u.Valid ∧ u.Pos ∧ u.shape = s) →
    ((ts.foldl TT.add t).Valid ∧ (ts.foldl TT.add t).Pos ∧ (ts.foldl TT.add t).shape = s) ∧
    (∀ i, (ts.foldl TT.add t).toNumpy.get i = t.toNumpy.get i + (ts.map fun u => u.toNumpy.get i).sum) ∧
    ∀ k < s.length - 1, (ts.foldl TT.add t).rank.getD k 0 = t.rank.getD k 0 + (ts.map fun u => u.rank.getD k 0).sum
  | [], t, ht, _ => by simpa using ht
  | u :: us, t, ht, h => by
    have hu := h u (by simp)
    have hs := ht.2.2.trans hu.2.2.symm
    obtain ⟨a1, a2, a3, a4⟩ := TT.add_spec ht.1 hu.1 hs (by rw [ht.2.2]; exact hd)
    have ap := TT.pos_add ht.1 hu.1 hs (by rw [ht.2.2]; exact hd) ht.2.1
    obtain ⟨b1, b2, b3⟩ := foldl_add hd us (t.add u) ⟨a1, ap, a2.trans ht.2.2⟩ fun v hv => h v (by simp [hv])
    refine ⟨b1, fun i => ?_, fun k hk => ?_⟩
    · rw [List.foldl_cons, b2, TT.toNumpy_get a1, a4, ← TT.toNumpy_get ht.1, ← TT.toNumpy_get hu.1, List.map_cons,
        List.sum_cons, add_assoc]
    · have l1 : t.rank.length = s.length - 1 := by have := rank_length ht.1; rw [ht.2.2] at this; omega
      have l2 : u.rank.length = s.length - 1 := by have := rank_length hu.1; rw [hu.2.2] at this; omega
      rw [List.foldl_cons, b3 k hk, a3, List.map_cons, List.sum_cons, ← add_assoc]
      congr 1
      rw [List.getD_eq_getElem _ _ (by simp [l1, l2, hk]), List.getElem_zipWith, List.getD_eq_getElem _ _ (by omega),
        List.getD_eq_getElem _ _ (by omega)]

theorem ranksLe_trans {a b c : List ℕ} (h : RanksLe a b) (h' : RanksLe b c) : RanksLe a c :=
  ⟨h.1.trans h'.1, fun i hi => (h.2 i hi).trans (h'.2 i (h.1 ▸ hi))⟩

theorem round_good {la : LinAlg} (hq : la.QROk) (hs : la.SVDOk) {s : List ℕ} {X : TT ℝ}
    (hX : X.Valid ∧ X.Pos ∧ X.shape = s) (eps : Option ℝ) {a : RankArg} (ha : RankOk s a) :
    ∃ Y, X.round la eps (some a) false = .ok Y ∧ (Y.Valid ∧ Y.Pos ∧ Y.shape = s) ∧
      RanksLe Y.rank (trimRanks s (askedRanks s a)) := by
  obtain ⟨h1, h2, rfl⟩ := hX
  obtain ⟨Y, y1, y2, y3, y4, -⟩ := C19 hq hs h1 h2 eps (some a) false
    fun b hb => by injection hb with h; rw [← h]; exact ha.len
  obtain ⟨Y', z1, z2⟩ := C19_pos hq hs h1 h2 eps a false ha.len ha.pos
  rw [y1] at z1
  injection z1 with z1
  subst z1
  exact ⟨Y, y1, ⟨y2, y4, y3⟩, z2⟩

theorem pairwise_good {la : LinAlg} (hq : la.QROk) (hs : la.SVDOk) {s : List ℕ} (hd : 2 ≤ s.length) (eps : Option ℝ)
    {a : RankArg} (ha : RankOk s a) : ∀ (ts : List (TT ℝ)) (t : TT ℝ),
    t.Valid ∧ t.Pos ∧ t.shape = s → (∀ u ∈ ts, u.Valid ∧ u.Pos ∧ u.shape = s) →
    ∃ Y, ts.foldlM (fun acc t => (acc.add t).round la eps (some a) false) t = .ok Y ∧
      (Y.Valid ∧ Y.Pos ∧ Y.shape = s) ∧ (ts = [] → Y = t) ∧
      (ts ≠ [] ∨ RanksLe t.rank (trimRanks s (askedRanks s a)) → RanksLe Y.rank (trimRanks s (askedRanks s a)))
  | [], t, ht, _ => ⟨t, rfl, ht, fun _ => rfl, fun h => h.resolve_left fun h => h rfl⟩
  | u :: us, t, ht, h => by
    obtain ⟨b1, -⟩ := foldl_add hd [u] t ht fun v hv => h v (by simp at hv; simp [hv])
    obtain ⟨Z, z1, z2, z3⟩ := round_good hq hs b1 eps ha
    obtain ⟨Y, y1, y2, -, y3⟩ := pairwise_good hq hs hd eps ha us Z z2 fun v hv => h v (by simp [hv])
    refine ⟨Y, ?_, y2, fun h => absurd h (by simp), fun _ => y3 (.inr z3)⟩
    rw [List.foldlM_cons]
    show ((t.add u).round la eps (some a) false).bind _ = _
    rw [show (t.add u).round la eps (some a) false = .ok Z from z1]
    exact y1

theorem oversample_length (f : ℝ) (rs : List ℕ) : (oversample f rs).length = rs.length := by simp [oversample]

theorem oversample_getD {f : ℝ} {rs : List ℕ} {k : ℕ} (hk : k < rs.length) :
    (oversample f rs).getD k 0 = ⌈(rs.getD k 0 : ℝ) * f⌉₊ := by
  rw [List.getD_eq_getElem _ _ (by simpa [oversample] using hk), List.getD_eq_getElem _ _ hk]
  simp [oversample]

theorem lt_oversample {f : ℝ} (hf : 1 < f) {rs : List ℕ} (h : ∀ r ∈ rs, 0 < r) {k : ℕ} (hk : k < rs.length) :
    rs.getD k 0 < (oversample f rs).getD k 0 := by
  rw [oversample_getD hk]
  have : 0 < rs.getD k 0 := by rw [List.getD_eq_getElem _ _ hk]; exact h _ (List.getElem_mem _)
  have h' : (0 : ℝ) < rs.getD k 0 := by exact_mod_cast this
  rw [Nat.lt_ceil]
  nlinarith

theorem trim_len {s : List ℕ} {a : RankArg} (ha : RankOk s a) :
    (trimRanks s (askedRanks s a)).length + 1 = s.length := by rw [trimRanks_length _ _ ha.len, ha.len]

theorem asked_pos {s : List ℕ} (hs : ∀ n ∈ s, 0 < n) {a : RankArg} (ha : RankOk s a) :
    ∀ r ∈ trimRanks s (askedRanks s a), 0 < r := by
  intro r hr
  obtain ⟨k, hk, rfl⟩ := List.mem_iff_getElem.1 hr
  have hl := trimRanks_length _ _ ha.len
  have := C03_pos s _ ha.len hs ha.pos k (by omega)
  rwa [List.getD_eq_getElem _ _ hk] at this

theorem trim_trim_le {s : List ℕ} {rs : List ℕ} (h : rs.length + 1 = s.length) : RanksLe (trimRanks s rs) rs :=
  ⟨trimRanks_length _ _ h, fun k hk => (C02 s rs h k (by rw [← trimRanks_length _ _ h]; exact hk)).2.1⟩

theorem shape_pos_of_list {ts : List (TT ℝ)} {s : List ℕ} (h : TTList ts s) : ∀ n ∈ s, 0 < n := by
  obtain ⟨t, ht⟩ := List.exists_mem_of_ne_nil _ h.ne
  have := h.each t ht
  rw [← this.2.2]
  exact this.2.1.1

theorem pos_of_rank {Y : TT ℝ} {s : List ℕ} (hs : ∀ n ∈ s, 0 < n) (h1 : Y.shape = s) (h2 : ∀ r ∈ Y.rank, 0 < r) :
    Y.Pos := ⟨by rw [h1]; exact hs, h2⟩

theorem ttSum_supports (ts : List (TT ℝ)) : ∀ t ∈ (ttSum ts).summands, ∀ D : DRMData ℝ,
    (D.kind = (none : Option DRMKind).getD ((none : Option DRMKind).getD .tensorTrain) ∨
      D.kind = (none : Option DRMKind).getD ((none : Option DRMKind).getD .tensorTrain)) → D.supports t = true :=
  fun t _ D h => supports_tt D (by rcases h with h | h <;> exact h) t

theorem sketch_ranks (env : Env ℝ) {ts : List (TT ℝ)} {s : List ℕ} (h : TTList ts s)
    (hd : 2 ≤ s.length) {rs : List ℕ} (hl : rs.length + 1 = s.length) (hp : ∀ r ∈ rs, 0 < r) {f : ℝ} (hf : 1 < f) :
    ∃ S, streamSketch env (ttSum ts) (.seq rs) (.seq (oversample f rs)) = .ok S ∧
      S.leftRank = trimRanks s rs ∧ S.rightRank = oversample f rs := by
  have hs := ttSum_shape h
  have hv := ttSum_valid h
  have hne := ttSum_nonEmpty h
  have ho : ∀ k < s.length - 1, rs.getD k 0 < (oversample f rs).getD k 0 :=
    fun k hk => lt_oversample hf hp (by omega)
  obtain ⟨S, e⟩ := C33_success env (ttSum ts) (.seq rs) (.seq (oversample f rs)) none none none hv
    (by rw [hs]; exact hd) (by rw [hs]; show rs.length = _; omega)
    (by rw [hs]; show (oversample f rs).length = _; rw [oversample_length]; omega)
    (by rw [hs]; exact .inl ho) (by decide) (ttSum_supports ts)
  have hg := SketchKw.good_none (K := ℝ) none none none
  have hd' : 2 ≤ (ttSum ts).shape.length := by rw [hs]; exact hd
  have hr : S.leftRank = trimRanks s rs ∧ S.rightRank = oversample f rs := by
    unfold streamSketch at e
    obtain ⟨lb, hlb, e⟩ := andThen_ok e
    obtain ⟨rb, hrb, e⟩ := andThen_ok e
    rw [ranksLess_eq hd' (by rw [hs]; show (oversample f rs).length = _; rw [oversample_length]; omega)
      (by rw [hs]; show rs.length = _; omega)] at hlb
    rw [ranksLess_eq hd' (by rw [hs]; show rs.length = _; omega)
      (by rw [hs]; show (oversample f rs).length = _; rw [oversample_length]; omega)] at hrb
    have hrb' : rb = true := by
      injection hrb with hrb
      rw [← hrb, decide_eq_true_iff, hs]
      exact ho
    have hlb' : lb = false := by
      injection hlb with hlb
      rw [← hlb, decide_eq_false_iff_not, hs]
      intro hh
      have := hh 0 (by omega)
      have := ho 0 (by omega)
      simp only [ranksOf] at *
      omega
    subst hrb' hlb'
    split at e
    · cases e
    obtain ⟨l, hl', e⟩ := andThen_ok e
    obtain ⟨r, hr', e⟩ := andThen_ok e
    obtain ⟨c, hc, e⟩ := andThen_ok e
    injection e with e
    subst e
    obtain ⟨-, -, -, h4⟩ := leftDRM_inv hg hd' hl'
    obtain ⟨-, -, -, k4⟩ := rightDRM_inv hg hd' hr'
    constructor
    · rcases h4 with ⟨h4, -⟩ | ⟨-, -, -, -, h4⟩
      · cases h4
      · rw [show (⟨c, l, r⟩ : Sketched ℝ).leftRank = l.rank from rfl, h4, if_pos rfl, hs]
        rfl
    · rcases k4 with ⟨k4, -⟩ | ⟨-, -, -, -, k4⟩
      · cases k4
      · rw [show (⟨c, l, r⟩ : Sketched ℝ).rightRank = r.rank.reverse from rfl, k4, if_neg (by decide)]
        rfl
  exact ⟨S, e, hr⟩

theorem sketch_good {env : Env ℝ} (hE : LstsqContract env) {ts : List (TT ℝ)} {s : List ℕ} (h : TTList ts s)
    (hd : 2 ≤ s.length) {rs : List ℕ} (hl : rs.length + 1 = s.length) (hp : ∀ r ∈ rs, 0 < r) {f : ℝ} (hf : 1 < f) :
    ∃ S Y, streamSketch env (ttSum ts) (.seq rs) (.seq (oversample f rs)) = .ok S ∧ S.toTT env = .ok Y ∧ Y.Valid ∧
      Y.shape = s ∧ Y.rank = trimRanks s rs ∧ S.leftRank = trimRanks s rs ∧ S.rightRank = oversample f rs := by
  have hs := ttSum_shape h
  have ho : ∀ k < s.length - 1, rs.getD k 0 < (oversample f rs).getD k 0 :=
    fun k hk => lt_oversample hf hp (by omega)
  obtain ⟨S, e, hr⟩ := sketch_ranks env h hd hl hp hf
  obtain ⟨-, -, ⟨Y, y1, y2, y3, y4, y5⟩, -⟩ := C40_cores env hE _ _ _ _ S (SketchKw.good_none (K := ℝ) none none none)
    (ttSum_valid h) (ttSum_nonEmpty h) (by rw [hs]; exact hd) e
  refine ⟨S, Y, e, y1, y2, y3.trans hs, ?_, hr.1, hr.2⟩
  have hl2 := trimRanks_length s rs hl
  refine List.ext_getElem (by rw [y4, hs]; omega) fun k h1 h2 => ?_
  have h3 : k < s.length - 1 := by omega
  have := y5 k (by rw [hs]; exact h3)
  rw [hr.1, hr.2, List.getD_eq_getElem _ _ h1, List.getD_eq_getElem _ _ h2] at this
  rw [this, min_eq_left]
  have a := (trim_trim_le hl).2 k h2
  have b := ho k h3
  rw [List.getD_eq_getElem _ _ h2] at a
  omega

theorem orth_good {env : Env ℝ} (hE : LstsqContract env) (hQ : QRContract env) {ts : List (TT ℝ)} {s : List ℕ}
    (h : TTList ts s) (hd : 2 ≤ s.length) {rs : List ℕ} (hl : rs.length + 1 = s.length)
    (hp : ∀ r ∈ rs, 0 < r) {f : ℝ} (hf : 1 < f) :
    ∃ Y l r, orthogonalSketch env (ttSum ts) (.seq rs) (.seq (oversample f rs)) = .ok (Y, l, r) ∧ Y.Valid ∧
      Y.shape = s ∧ Y.rank = trimRanks s rs ∧ l.rank = trimRanks s rs ∧ r.rank.reverse = oversample f rs := by
  have hs := ttSum_shape h
  have hv := ttSum_valid h
  have hne := ttSum_nonEmpty h
  have hd' : 2 ≤ (ttSum ts).shape.length := by rw [hs]; exact hd
  obtain ⟨Y, l, r, e⟩ := C41_success env hE hQ (ttSum ts) (.seq rs) (.seq (oversample f rs)) none none none hv hd'
    (ttSum_distinct ts) (ttSum_rightExact ts) (by rw [hs]; show rs.length = _; omega)
    (by rw [hs]; show (oversample f rs).length = _; rw [oversample_length]; omega)
    (by rw [hs]; exact fun k hk => lt_oversample hf hp (by omega)) (by rw [hs]; exact shape_pos_of_list h)
    hp (by decide) (ttSum_supports ts)
  have hg := SketchKw.good_none (K := ℝ) none none none
  obtain ⟨f1, f2, f3, -⟩ := C41_form env hE hQ _ _ _ _ Y l r hg hv hne hd' (ttSum_distinct ts) (ttSum_rightExact ts) e
  obtain ⟨-, -, -, -, -, -, o6, o7⟩ := orth_inv hg hv hne hd' e
  have e1 : l.rank = trimRanks s rs := by rw [o6 rfl, hs]; rfl
  exact ⟨Y, l, r, e, f1, f2.trans hs, f3.trans e1, e1, o7 rfl⟩

/-- **C55.** For every rounding method (other than `None`) the result is a tensor train of the same shape; its ranks
are at most the trimmed maximal ranks, except for `pairwise` with a single summand.  For `exact` and `pairwise` with any
`eps`; for the sketches the ranks are exactly the (twice) trimmed maximal ranks.  At least two modes,
positive maximal ranks, oversampling factor above one. -/
theorem C55 {env : Env ℝ} {la : LinAlg} (hla : RoundEnv env la) (ts : List (TT ℝ)) (s : List ℕ) (h : TTList ts s)
    (hd : 2 ≤ s.length) (a : RankArg) (ha : RankOk s a) (eps : Option ℝ) (m : RoundMode) (f : ℝ)
    (hm : m = .exact ∨ m = .pairwise ∨ m = .sketch ∨ m = .orthSketch)
    (hf : m = .sketch ∨ m = .orthSketch → 1 < f) :
    ∃ Y, roundTTSum env la ts a eps m f = .ok (.tt Y) ∧ Y.Valid ∧ Y.Pos ∧ Y.shape = s ∧
      (m = .pairwise → ts.length ≠ 1 → RanksLe Y.rank (trimRanks s (askedRanks s a))) ∧
      (m ≠ .pairwise → RanksLe Y.rank (trimRanks s (askedRanks s a))) ∧
      (m = .sketch ∨ m = .orthSketch → Y.rank = trimRanks s (trimRanks s (askedRanks s a))) := by
  have hs := ttSum_shape h
  have hp : processTTRank a s true = .ok (trimRanks s (askedRanks s a)) := by rw [process_asked, if_pos ha.len]
  have p1 := shape_pos_of_list h
  have p2 := asked_pos p1 ha
  have hl := trim_len ha
  have p3 : ∀ r ∈ trimRanks s (trimRanks s (askedRanks s a)), 0 < r :=
    asked_pos (a := .seq (trimRanks s (askedRanks s a))) p1 ⟨hl, p2⟩
  rcases hm with rfl | rfl | rfl | rfl
  · cases ts with
    | nil => exact absurd rfl h.ne
    | cons t ts =>
      obtain ⟨b1, -⟩ := foldl_add hd ts t (h.each t (by simp)) fun u hu => h.each u (by simp [hu])
      obtain ⟨Y, y1, y2, y3⟩ := round_good hla.qr hla.svd b1 eps ha
      exact ⟨Y, by simp only [roundTTSum, addAll, Except.andThen, y1]; rfl, y2.1, y2.2.1, y2.2.2,
        (fun h => by cases h), fun _ => y3, fun h => by rcases h with h | h <;> cases h⟩
  · cases ts with
    | nil => exact absurd rfl h.ne
    | cons t ts =>
      obtain ⟨Y, y1, y2, -, y3⟩ := pairwise_good hla.qr hla.svd hd eps ha ts t (h.each t (by simp))
        fun u hu => h.each u (by simp [hu])
      refine ⟨Y, by simp only [roundTTSum, addRounding, y1]; rfl, y2.1, y2.2.1, y2.2.2, fun _ hn => y3 (.inl ?_),
        fun h => absurd rfl h, fun h => by rcases h with h | h <;> cases h⟩
      rintro rfl
      exact hn rfl
  · obtain ⟨S, Y, e, y1, y2, y3, y4, -⟩ := sketch_good hla.lstsq h hd hl p2 (hf (.inl rfl))
    refine ⟨Y, ?_, y2, pos_of_rank p1 y3 (by rw [y4]; exact p3), y3, (fun h => by cases h), fun _ => ?_, fun _ => y4⟩
    · simp only [roundTTSum, hs, hp, Except.andThen, e, y1]; rfl
    · rw [y4]; exact trim_trim_le hl
  · obtain ⟨Y, l, r, e, y2, y3, y4, -⟩ := orth_good hla.lstsq hla.qrE h hd hl p2 (hf (.inr rfl))
    refine ⟨Y, ?_, y2, pos_of_rank p1 y3 (by rw [y4]; exact p3), y3, (fun h => by cases h), fun _ => ?_, fun _ => y4⟩
    · simp only [roundTTSum, hs, hp, Except.andThen, e]; rfl
    · rw [y4]; exact trim_trim_le hl

/-- **C55, single summand.** `pairwise` returns a single summand as it is, whatever the maximal rank. -/
theorem C55_single (env : Env ℝ) (la : LinAlg) (t : TT ℝ) (a : RankArg) (eps : Option ℝ) (f : ℝ) :
    roundTTSum env la [t] a eps .pairwise f = .ok (.tt t) := rfl

/-- Finding: so the maximal rank is not respected. -/
theorem C55_single_rank (env : Env ℝ) (la : LinAlg) : ∃ (t Y : TT ℝ), TTList [t] [2, 2, 2] ∧
    RankOk [2, 2, 2] (.int 1) ∧ roundTTSum env la [t] (.int 1) none .pairwise 2 = .ok (.tt Y) ∧
    ¬ RanksLe Y.rank (trimRanks [2, 2, 2] (askedRanks [2, 2, 2] (.int 1))) := by
  refine ⟨⟨[ND.zeros [1, 2, 2], ND.zeros [2, 2, 2], ND.zeros [2, 2, 1]]⟩, _, ⟨by simp, ?_⟩, ⟨by decide, by decide⟩, rfl, ?_⟩
  · intro t ht
    rw [List.mem_singleton] at ht
    subst ht
    exact ⟨⟨by simp, 2, 2, rfl, 2, 2, rfl, 2, 1, rfl, rfl⟩, ⟨by decide, by decide⟩, rfl⟩
  · intro h
    have := h.2 0 (by decide)
    revert this
    decide +kernel

/-- **C55, other values of `method`.** `None` returns the sum itself, unknown ones are rejected. -/
theorem C55_other (env : Env ℝ) (la : LinAlg) (ts : List (TT ℝ)) (a : RankArg) (eps : Option ℝ) (f : ℝ) :
    roundTTSum env la ts a eps .none f = .ok (.sum ts) ∧
    roundTTSum env la ts a eps .unknown f = .error .valueError := ⟨rfl, rfl⟩

/-- **C55, rejected ranks.** A rank sequence of the wrong length is rejected with `ValueError` by every method
(`pairwise`: if there is something to add). -/
theorem C55_reject {env : Env ℝ} {la : LinAlg} (hla : RoundEnv env la) (ts : List (TT ℝ)) (s : List ℕ)
    (h : TTList ts s) (hd : 2 ≤ s.length) (rs : List ℕ) (hl : rs.length + 1 ≠ s.length) (eps : Option ℝ)
    (m : RoundMode) (f : ℝ) (hm : m = .exact ∨ m = .pairwise ∧ ts.length ≠ 1 ∨ m = .sketch ∨ m = .orthSketch) :
    roundTTSum env la ts (.seq rs) eps m f = .error .valueError := by
  have hs := ttSum_shape h
  have hp : processTTRank (.seq rs) s true = .error .valueError := by rw [process_asked]; exact if_neg hl
  rcases hm with rfl | ⟨rfl, hm⟩ | rfl | rfl
  · cases ts with
    | nil => exact absurd rfl h.ne
    | cons t ts =>
      obtain ⟨b1, -⟩ := foldl_add hd ts t (h.each t (by simp)) fun u hu => h.each u (by simp [hu])
      have := C19_reject hla.qr b1.1 b1.2.1 eps rs false (by rw [b1.2.2]; exact hl)
      simp only [roundTTSum, addAll, Except.andThen, this]; rfl
  · cases ts with
    | nil => exact absurd rfl h.ne
    | cons t ts =>
      cases ts with
      | nil => exact absurd rfl hm
      | cons u us =>
        obtain ⟨b1, -⟩ := foldl_add hd [u] t (h.each t (by simp)) fun v hv => h.each v (by simp at hv; simp [hv])
        have := C19_reject hla.qr b1.1 b1.2.1 eps rs false (by rw [b1.2.2]; exact hl)
        simp only [roundTTSum, addRounding, List.foldlM_cons]
        rw [show (t.add u).round la eps (some (.seq rs)) false = .error .valueError from this]
        rfl
  · simp only [roundTTSum, hs, hp, Except.andThen]
  · simp only [roundTTSum, hs, hp, Except.andThen]

/-- **C55, oversampling.** `orth_sketch` with an oversampling factor of at most one, and `sketch` with factor one, are
a `ValueError`. -/
theorem C55_factor {env : Env ℝ} {la : LinAlg} (ts : List (TT ℝ)) (s : List ℕ) (h : TTList ts s) (hd : 2 ≤ s.length)
    (a : RankArg) (ha : RankOk s a) (eps : Option ℝ) (f : ℝ) :
    (f ≤ 1 → roundTTSum env la ts a eps .orthSketch f = .error .valueError) ∧
    (f = 1 → roundTTSum env la ts a eps .sketch f = .error .valueError) := by
  have hs := ttSum_shape h
  have hp : processTTRank a s true = .ok (trimRanks s (askedRanks s a)) := by rw [process_asked, if_pos ha.len]
  have hl := trim_len ha
  have hd' : 2 ≤ (ttSum ts).shape.length := by rw [hs]; exact hd
  have le : ∀ f : ℝ, f ≤ 1 → ∀ k < s.length - 1, (oversample f (trimRanks s (askedRanks s a))).getD k 0
      ≤ (trimRanks s (askedRanks s a)).getD k 0 := by
    intro f hf k hk
    rw [oversample_getD (by omega)]
    refine Nat.ceil_le.2 ?_
    have : (0 : ℝ) ≤ (trimRanks s (askedRanks s a)).getD k 0 := Nat.cast_nonneg _
    nlinarith
  have l1 : (ranksOf (.seq (trimRanks s (askedRanks s a))) (ttSum ts).shape.length).length
      = (ttSum ts).shape.length - 1 := by rw [hs]; show (trimRanks s _).length = _; omega
  have l2 : (ranksOf (.seq (oversample f (trimRanks s (askedRanks s a)))) (ttSum ts).shape.length).length
      = (ttSum ts).shape.length - 1 := by rw [hs]; show (oversample f _).length = _; rw [oversample_length]; omega
  constructor
  · intro hf
    have : orthogonalSketch env (ttSum ts) (.seq (trimRanks s (askedRanks s a)))
        (.seq (oversample f (trimRanks s (askedRanks s a)))) = .error .valueError := by
      unfold orthogonalSketch
      rw [ranksLess_eq hd' l1 l2, decide_eq_false]
      · rfl
      · intro hh
        have h1 := hh 0 (by omega)
        have h2 := le f hf 0 (by omega)
        simp only [ranksOf] at h1
        omega
    simp only [roundTTSum, hs, hp, Except.andThen, this]
    rfl
  · rintro rfl
    have e : oversample 1 (trimRanks s (askedRanks s a)) = trimRanks s (askedRanks s a) := by
      unfold oversample
      simp
    have : streamSketch env (ttSum ts) (.seq (trimRanks s (askedRanks s a)))
        (.seq (oversample 1 (trimRanks s (askedRanks s a)))) = .error .valueError := by
      refine C43_stream_reject env _ _ _ _ hd' l1 l2 ?_
      rw [e]
      rintro (hh | hh)
      · exact lt_irrefl _ (hh 0 (by omega))
      · exact lt_irrefl _ (hh 0 (by omega))
    simp only [roundTTSum, hs, hp, Except.andThen, this]

/-- **C55, accuracy of `exact`.** Up to the tolerance, the error is at most `√(d-1)` times that of any tensor train
within the maximal ranks. -/
theorem C55_exact {env : Env ℝ} {la : LinAlg} (hla : RoundEnv env la) (ts : List (TT ℝ)) (s : List ℕ) (h : TTList ts s)
    (hd : 2 ≤ s.length) (a : RankArg) (ha : RankOk s a) (eps : Option ℝ) (he : 0 ≤ eps.getD 0) (f : ℝ) :
    ∃ Y, roundTTSum env la ts a eps .exact f = .ok (.tt Y) ∧
      ∀ Z : TT ℝ, Z.Valid → Z.shape = s → RanksLe Z.rank (askedRanks s a) →
        distSq (ttSum ts).toNumpy Y.toNumpy ≤ (s.length - 1 : ℕ) * distSq (ttSum ts).toNumpy Z.toNumpy
          + ((trimRanks s (askedRanks s a)).sum : ℝ) * (eps.getD 0 ^ 2 * normSq (ttSum ts).toNumpy) := by
  have hn := ttSum_toNumpy_shape h
  have hg := ttSum_get h
  cases ts with
  | nil => exact absurd rfl h.ne
  | cons t ts =>
    obtain ⟨b1, b2, -⟩ := foldl_add hd ts t (h.each t (by simp)) fun u hu => h.each u (by simp [hu])
    have e : (ts.foldl TT.add t).toNumpy = (ttSum (t :: ts)).toNumpy :=
      ND.ext' (by rw [TT.toNumpy_shape b1.1, b1.2.2, hn]) fun i _ => by rw [b2, hg]; simp
    obtain ⟨Y, y1, y2⟩ := C20_quasi_optimal hla.qr hla.svd b1.1 b1.2.1 eps he a false (by rw [b1.2.2]; exact ha.len)
      (by intro h; cases h)
    rw [b1.2.2, e] at y2
    exact ⟨Y, by simp only [roundTTSum, addAll, Except.andThen, y1]; rfl, y2⟩

/-- **C55, no loss (`exact`).** Without tolerance and with maximal ranks at least those of some tensor train denoting the
sum, `exact` returns exactly the sum. -/
theorem C55_exact_lossless {env : Env ℝ} {la : LinAlg} (hla : RoundEnv env la) (ts : List (TT ℝ)) (s : List ℕ)
    (h : TTList ts s) (hd : 2 ≤ s.length) (a : RankArg) (ha : RankOk s a) (f : ℝ) {Z : TT ℝ} (hZ : Z.Valid)
    (hZs : Z.shape = s) (hZr : RanksLe Z.rank (askedRanks s a)) (hZv : Z.toNumpy = (ttSum ts).toNumpy) :
    ∃ Y, roundTTSum env la ts a none .exact f = .ok (.tt Y) ∧ Y.toNumpy = (ttSum ts).toNumpy := by
  have hn := ttSum_toNumpy_shape h
  have hg := ttSum_get h
  cases ts with
  | nil => exact absurd rfl h.ne
  | cons t ts =>
    obtain ⟨b1, b2, -⟩ := foldl_add hd ts t (h.each t (by simp)) fun u hu => h.each u (by simp [hu])
    have e : (ts.foldl TT.add t).toNumpy = (ttSum (t :: ts)).toNumpy :=
      ND.ext' (by rw [TT.toNumpy_shape b1.1, b1.2.2, hn]) fun i _ => by rw [b2, hg]; simp
    obtain ⟨Y, y1, y2⟩ := C20_exact hla.qr hla.svd b1.1 b1.2.1 a false (by rw [b1.2.2]; exact ha.len)
      (by intro h; cases h) hZ (hZs.trans b1.2.2.symm) (by rw [b1.2.2]; exact hZr) (hZv.trans e.symm)
    exact ⟨Y, by simp only [roundTTSum, addAll, Except.andThen, y1]; rfl, y2.trans e⟩

theorem pairwise_lossless {la : LinAlg} (hq : la.QROk) (hs : la.SVDOk) {s : List ℕ} (hd : 2 ≤ s.length)
    {a : RankArg} (ha : RankOk s a) : ∀ (ts : List (TT ℝ)) (t : TT ℝ),
    t.Valid ∧ t.Pos ∧ t.shape = s → (∀ u ∈ ts, u.Valid ∧ u.Pos ∧ u.shape = s) →
    (∀ k < s.length - 1, t.rank.getD k 0 + (ts.map fun u => u.rank.getD k 0).sum ≤ (askedRanks s a).getD k 0) →
    ∃ Y, ts.foldlM (fun acc t => (acc.add t).round la none (some a) false) t = .ok Y ∧
      (Y.Valid ∧ Y.Pos ∧ Y.shape = s) ∧
      ∀ i, Y.toNumpy.get i = t.toNumpy.get i + (ts.map fun u => u.toNumpy.get i).sum
  | [], t, ht, _, _ => ⟨t, rfl, ht, by simp⟩
  | u :: us, t, ht, h, hk => by
    obtain ⟨b1, b2, b3⟩ := foldl_add hd [u] t ht fun v hv => h v (by simp at hv; simp [hv])
    have al := ha.len
    have hl : (t.add u).rank.length + 1 = s.length := by
      have := rank_length b1.1; rw [b1.2.2] at this; exact this
    have hle : ∀ k < s.length - 1, (t.add u).rank.getD k 0 + (us.map fun u => u.rank.getD k 0).sum
        ≤ (askedRanks s a).getD k 0 := by
      intro k hk'
      have h1 := b3 k hk'
      have h2 := hk k hk'
      simp only [List.foldl_cons, List.foldl_nil, List.map_cons, List.map_nil, List.sum_cons, List.sum_nil] at h1 h2
      omega
    obtain ⟨Z, z1, z2⟩ := C20_exact hq hs b1.1 b1.2.1 a false (by rw [b1.2.2]; exact ha.len)
      (by intro h; cases h) b1.1 rfl ⟨by rw [b1.2.2]; show (t.add u).rank.length = _; omega, fun k hk' => by
        rw [b1.2.2]; exact (Nat.le_add_right _ _).trans (hle k (by
          have : k < (t.add u).rank.length := hk'
          omega))⟩ rfl
    obtain ⟨Z', w1, w2, w3, w4, w5, -⟩ := C19 hq hs b1.1 b1.2.1 none (some a) false
      fun b hb => by injection hb with h; rw [← h, b1.2.2]; exact ha.len
    rw [z1] at w1
    injection w1 with w1
    subst w1
    obtain ⟨Y, y1, y2, y3⟩ := pairwise_lossless hq hs hd ha us Z ⟨w2, w4, w3.trans b1.2.2⟩
      (fun v hv => h v (by simp [hv])) fun k hk' => (Nat.add_le_add_right (w5.2 k (by
        rw [w5.1]; show k < (t.add u).rank.length; omega)) _).trans (hle k hk')
    refine ⟨Y, ?_, y2, fun i => ?_⟩
    · rw [List.foldlM_cons]
      rw [show (t.add u).round la none (some a) false = .ok Z from z1]
      exact y1
    · rw [y3, z2, b2]
      simp [add_assoc]

/-- **C55, no loss (`pairwise`).** Without tolerance and with maximal ranks at least the sums of the ranks of the
summands, `pairwise` returns exactly the sum. -/
theorem C55_pairwise_lossless {env : Env ℝ} {la : LinAlg} (hla : RoundEnv env la) (ts : List (TT ℝ)) (s : List ℕ)
    (h : TTList ts s) (hd : 2 ≤ s.length) (a : RankArg) (ha : RankOk s a) (f : ℝ)
    (hr : ∀ k < s.length - 1, (ts.map fun u => u.rank.getD k 0).sum ≤ (askedRanks s a).getD k 0) :
    ∃ Y, roundTTSum env la ts a none .pairwise f = .ok (.tt Y) ∧ Y.toNumpy = (ttSum ts).toNumpy := by
  have hn := ttSum_toNumpy_shape h
  have hg := ttSum_get h
  cases ts with
  | nil => exact absurd rfl h.ne
  | cons t ts =>
    obtain ⟨Y, y1, y2, y3⟩ := pairwise_lossless hla.qr hla.svd hd ha ts t (h.each t (by simp))
      (fun u hu => h.each u (by simp [hu])) (by simpa using hr)
    exact ⟨Y, by simp only [roundTTSum, addRounding, y1]; rfl,
      ND.ext' (by rw [TT.toNumpy_shape y2.1, y2.2.2, hn]) fun i _ => by rw [y3, hg]; simp⟩

/-- **C55, no loss (sketches).** If the sketches used have the ranks of the unfoldings of the sum, `sketch` and
`orth_sketch` return exactly the sum. -/
theorem C55_sketch_lossless {env : Env ℝ} {la : LinAlg} (hla : RoundEnv env la) (ts : List (TT ℝ)) (s : List ℕ)
    (h : TTList ts s) (hd : 2 ≤ s.length) (a : RankArg) (ha : RankOk s a) (eps : Option ℝ) (f : ℝ) (hf : 1 < f) :
    (∃ (Y : TT ℝ) (S : Sketched ℝ), roundTTSum env la ts a eps .sketch f = .ok (.tt Y) ∧
      streamSketch env (ttSum ts) (.seq (trimRanks s (askedRanks s a)))
        (.seq (oversample f (trimRanks s (askedRanks s a)))) = .ok S ∧
      ((∀ mu < s.length - 1,
        ((S.sketch.omega.getD mu (ND.zeros [])).asMatrix (S.leftRank.getD mu 0) (S.rightRank.getD mu 0)).rank
          = ((ttSum ts).toNumpy.unfolding (mu + 1)).rank) → Y.toNumpy = (ttSum ts).toNumpy)) ∧
    (∃ (Y : TT ℝ) (l r : DRM ℝ), roundTTSum env la ts a eps .orthSketch f = .ok (.tt Y) ∧
      orthogonalSketch env (ttSum ts) (.seq (trimRanks s (askedRanks s a)))
        (.seq (oversample f (trimRanks s (askedRanks s a)))) = .ok (Y, l, r) ∧
      ((∀ mu < s.length - 1,
        (Matrix.of fun (i : Fin (l.rank.getD mu 0)) (j : Fin (r.rank.reverse.getD mu 0)) =>
          omegaSpec s (ttSum ts).toNumpy.get (l.leftMats env) (r.rightMats env) mu i j).rank
          = ((ttSum ts).toNumpy.unfolding (mu + 1)).rank) → Y.toNumpy = (ttSum ts).toNumpy)) := by
  have hs := ttSum_shape h
  have hp : processTTRank a s true = .ok (trimRanks s (askedRanks s a)) := by rw [process_asked, if_pos ha.len]
  have p1 := shape_pos_of_list h
  have p2 := asked_pos p1 ha
  have hl := trim_len ha
  have p3 : ∀ r ∈ trimRanks s (trimRanks s (askedRanks s a)), 0 < r :=
    asked_pos (a := .seq (trimRanks s (askedRanks s a))) p1 ⟨hl, p2⟩
  have hd' : 2 ≤ (ttSum ts).shape.length := by rw [hs]; exact hd
  have hg := SketchKw.good_none (K := ℝ) none none none
  constructor
  · obtain ⟨S, Y, e, y1, -⟩ := sketch_good hla.lstsq h hd hl p2 hf
    refine ⟨Y, S, by simp only [roundTTSum, hs, hp, Except.andThen, e, y1]; rfl, e, fun hr => ?_⟩
    obtain ⟨-, Y', z1, -, z2⟩ := C39_recovery env hla.lstsq _ _ _ _ S hg (ttSum_valid h) (ttSum_nonEmpty h) hd'
      (ttSum_distinct ts) (ttSum_rightExact ts) e (by rw [hs]; exact hr)
    rw [y1] at z1
    injection z1 with z1
    subst z1
    exact z2
  · obtain ⟨Y, l, r, e, -, -, -, y1, -⟩ := orth_good hla.lstsq hla.qrE h hd hl p2 hf
    refine ⟨Y, l, r, by simp only [roundTTSum, hs, hp, Except.andThen, e]; rfl, e, fun hr => ?_⟩
    exact C41_recovery env hla.lstsq hla.qrE _ _ _ _ Y l r hg (ttSum_valid h) (ttSum_nonEmpty h) hd'
      (ttSum_distinct ts) (ttSum_rightExact ts) (by rw [hs]; exact p1) (by rw [y1]; exact p3) e (by rw [hs]; exact hr)

/-! ### The hypotheses can be met -/

theorem roundEnv8 : RoundEnv env8 laChoice :=
  ⟨laChoice_qr, laChoice_svd, lstsqChoice_contract rfl, qrChoice_contract rfl⟩

theorem z9_pos : z9.Pos := by simp [TT.Pos, z9, TT.shape, TT.rank, ND.dim]

theorem list9 : TTList [x9, z9, x9] [2, 3, 2] := by
  refine ⟨by simp, fun t ht => ?_⟩
  simp only [List.mem_cons, List.not_mem_nil, or_false] at ht
  rcases ht with rfl | rfl | rfl
  · exact ⟨x9_valid, x9_pos, rfl⟩
  · exact ⟨⟨by simp [z9], 2, 1, rfl, 3, 1, rfl, 2, 1, rfl, rfl⟩, z9_pos, rfl⟩
  · exact ⟨x9_valid, x9_pos, rfl⟩

/-- `C55` applies to three trains of ranks 2, 1 and 2 and every rounding method. -/
example (m : RoundMode) (h : m = .exact ∨ m = .pairwise ∨ m = .sketch ∨ m = .orthSketch) :
    ∃ Y, roundTTSum env8 laChoice [x9, z9, x9] (.seq [2, 1]) none m 2 = .ok (.tt Y) ∧ Y.Valid ∧ Y.shape = [2, 3, 2] ∧
      RanksLe Y.rank [2, 1] := by
  obtain ⟨Y, h1, h2, -, h3, h4, h5, -⟩ := C55 roundEnv8 _ _ list9 (by simp) (.seq [2, 1]) ⟨by decide, by decide⟩ none m 2
    h (fun _ => by norm_num)
  refine ⟨Y, h1, h2, h3, ?_⟩
  by_cases hm : m = .pairwise
  · exact h4 hm (by decide)
  · exact h5 hm

/-- `C55_pairwise_lossless` applies: the ranks add up to 5, so with maximal rank 5 nothing is lost. -/
example : ∃ Y, roundTTSum env8 laChoice [x9, z9, x9] (.int 5) none .pairwise 2 = .ok (.tt Y) ∧
    Y.toNumpy = (ttSum [x9, z9, x9]).toNumpy :=
  C55_pairwise_lossless roundEnv8 _ _ list9 (by simp) (.int 5) ⟨by decide, by decide⟩ 2 (by
    intro k hk
    have hk : k < 2 := hk
    interval_cases k <;> decide)

end TTS.Props
