import Verif.Props.DRM

/-! The user-level function `stream_sketch`: what a successful call has done. -/

namespace TTS

open Props

variable {K : Type*} [CommRing K]

/-- Supplied DRMs are well formed, unsliced and face the right way. -/
structure SketchKw.Good (kw : SketchKw K) : Prop where
  left : ∀ D, kw.left = some D → D.WF ∧ D.toDRMBase.Full ∧ D.transpose = false
  right : ∀ D, kw.right = some D → D.WF ∧ D.toDRMBase.Full ∧ D.transpose = true

theorem SketchKw.good_none (seed : Option ℕ) (lt rt : Option DRMKind) :
    ({ seed := seed, leftType := lt, rightType := rt } : SketchKw K).Good :=
  ⟨(fun _ h => by cases h), (fun _ h => by cases h)⟩

theorem process_eq (rank : RankArg) (shape : List ℕ) (trim : Bool) :
    processTTRank rank shape trim = if (ranksOf rank shape.length).length + 1 ≠ shape.length then .error .valueError
      else if trim then .ok (trimRanks shape (ranksOf rank shape.length)) else .ok (ranksOf rank shape.length) := by
  cases rank <;> rfl

theorem process_ok_length {rank : RankArg} {shape r : List ℕ} {trim : Bool}
    (h : processTTRank rank shape trim = .ok r) :
    (ranksOf rank shape.length).length + 1 = shape.length ∧ r.length + 1 = shape.length ∧
      r = if trim then trimRanks shape (ranksOf rank shape.length) else ranksOf rank shape.length := by
  rw [process_eq] at h
  by_cases h1 : (ranksOf rank shape.length).length + 1 = shape.length
  · rw [if_neg (by simp [h1])] at h
    cases trim
    · simp only [Bool.false_eq_true, if_false, Except.ok.injEq] at h ⊢
      exact ⟨h1, by rw [← h]; exact h1, h.symm⟩
    · simp only [if_true, Except.ok.injEq] at h ⊢
      exact ⟨h1, by rw [← h, trimRanks_length _ _ h1]; exact h1, h.symm⟩
  · rw [if_pos h1] at h
    cases h

/-- A DRM that the constructor returned. -/
theorem new_inv {env : Env K} {kind : DRMKind} {r shape : List ℕ} {t : Bool} {seed : Option ℕ} {D : DRM K}
    (hd : 2 ≤ shape.length) (hr : r.length + 1 = shape.length)
    (h : DRM.new env kind (.seq r) shape t seed = .ok D) :
    D.WF ∧ D.toDRMBase.Full ∧ D.shape = shape ∧ D.transpose = t ∧ D.data.kind = kind ∧
      D.seed < 2 ^ 32 - 1 ∧ D.rank = if t then r.reverse else r := by
  by_cases hs : kind = .denseGaussian → seed.getD 0 < 2 ^ 32
  · obtain ⟨D', e, h1, h2, h3, h4, h5, h6, h7⟩ := C29_new env kind (.seq r) shape t seed hd
      (show r.length = _ by omega) hs
    rw [e] at h
    injection h with h
    subst h
    exact ⟨h1, h2, h3, h4, h5, h6, h7⟩
  · push Not at hs
    obtain ⟨rfl, hs⟩ := hs
    cases seed with
    | none => simp at hs
    | some s =>
      rw [C29_seed env (.seq r) shape t s hd (show r.length = _ by omega) (by simpa using hs)] at h
      cases h

/-- Left ranks strictly below the right ones on every bond, or strictly above on every bond. -/
def RanksOrdered (n : ℕ) (l r : List ℕ) : Prop :=
  (∀ k < n, l.getD k 0 < r.getD k 0) ∨ (∀ k < n, r.getD k 0 < l.getD k 0)

theorem replicate_getD (n r k : ℕ) (h : k < n) : (List.replicate n r).getD k 0 = r := by
  rw [getD_eq (by simpa using h)]; simp

theorem zip_all {a b : List ℕ} {n : ℕ} (ha : a.length = n) (hb : b.length = n) :
    ((a.zip b).all fun p => decide (p.1 < p.2)) = decide (∀ k < n, a.getD k 0 < b.getD k 0) := by
  rw [Bool.eq_iff_iff]
  simp only [List.all_eq_true, decide_eq_true_eq]
  constructor
  · intro h k hk
    have := h (a[k]'(by omega), b[k]'(by omega)) (by
      rw [List.mem_iff_getElem]
      exact ⟨k, by simp; omega, by simp⟩)
    rw [getD_eq (by omega), getD_eq (by omega)]; exact this
  · intro h p hp
    obtain ⟨k, hk, rfl⟩ := List.mem_iff_getElem.1 hp
    have hk' : k < n := by simp at hk; omega
    have := h k hk'
    rw [getD_eq (by omega), getD_eq (by omega)] at this
    simpa using this

theorem all_getD {b : List ℕ} {n : ℕ} (hb : b.length = n) (P : ℕ → Prop) [DecidablePred P] :
    (b.all fun y => decide (P y)) = decide (∀ k < n, P (b.getD k 0)) := by
  rw [Bool.eq_iff_iff]
  simp only [List.all_eq_true, decide_eq_true_eq]
  constructor
  · intro h k hk
    rw [getD_eq (by omega)]
    exact h _ (List.getElem_mem _)
  · intro h p hp
    obtain ⟨k, hk, rfl⟩ := List.mem_iff_getElem.1 hp
    have := h k (by omega)
    rwa [getD_eq hk] at this

/-- For rank arguments that fit the tensor, the comparison is entrywise. -/
theorem ranksLess_eq {a b : RankArg} {d : ℕ} (hd : 2 ≤ d) (ha : (ranksOf a d).length = d - 1)
    (hb : (ranksOf b d).length = d - 1) :
    ranksLess a b = .ok (decide (∀ k < d - 1, (ranksOf a d).getD k 0 < (ranksOf b d).getD k 0)) := by
  cases a with
  | int x =>
    cases b with
    | int y =>
      show Except.ok _ = Except.ok _
      congr 1
      rw [Bool.eq_iff_iff]
      rw [decide_eq_true_iff, decide_eq_true_iff]
      simp only [ranksOf]
      constructor
      · intro h k hk
        rw [replicate_getD _ _ _ hk, replicate_getD _ _ _ hk]; exact h
      · intro h
        have := h 0 (by omega)
        rwa [replicate_getD _ _ _ (by omega), replicate_getD _ _ _ (by omega)] at this
    | seq ys =>
      show Except.ok _ = Except.ok _
      congr 1
      rw [all_getD (b := ys) (n := d - 1) hb (fun y => x < y), Bool.eq_iff_iff]
      rw [decide_eq_true_iff, decide_eq_true_iff]
      simp only [ranksOf]
      exact forall₂_congr fun k hk => by rw [replicate_getD _ _ _ hk]
  | seq xs =>
    cases b with
    | int y =>
      show Except.ok _ = Except.ok _
      congr 1
      rw [all_getD (b := xs) (n := d - 1) ha (fun x => x < y), Bool.eq_iff_iff]
      rw [decide_eq_true_iff, decide_eq_true_iff]
      simp only [ranksOf]
      exact forall₂_congr fun k hk => by rw [replicate_getD _ _ _ hk]
    | seq ys =>
      have ha' : xs.length = d - 1 := ha
      have hb' : ys.length = d - 1 := hb
      show (if xs.length = ys.length then _ else _) = _
      rw [if_pos (by omega)]
      show Except.ok _ = Except.ok _
      congr 1
      exact zip_all ha' hb'

theorem leftDRM_inv {env : Env K} {shape : List ℕ} {rank : RankArg} {trim : Bool} {seed : ℕ}
    {kw : SketchKw K} (hkw : kw.Good) (hd : 2 ≤ shape.length) {D : DRM K}
    (h : leftDRM env shape rank trim seed kw = .ok D) :
    D.WF ∧ D.toDRMBase.Full ∧ D.transpose = false ∧
      (kw.left = some D ∧ rank = .seq D.rank ∨
       kw.left = none ∧ D.shape = shape ∧
        D.data.kind = kw.leftType.getD (kw.rightType.getD .tensorTrain) ∧
        (ranksOf rank shape.length).length + 1 = shape.length ∧
        D.rank = if trim then trimRanks shape (ranksOf rank shape.length) else ranksOf rank shape.length) := by
  unfold leftDRM at h
  cases hk : kw.left with
  | some D' =>
    simp only [hk] at h
    split_ifs at h with hr
    injection h with h
    subst h
    obtain ⟨h1, h2, h3⟩ := hkw.left D' hk
    exact ⟨h1, h2, h3, .inl ⟨rfl, hr.symm⟩⟩
  | none =>
    simp only [hk] at h
    cases hp : processTTRank rank shape trim with
    | error e => rw [hp] at h; cases h
    | ok r =>
      rw [hp] at h
      obtain ⟨p1, hl, p2⟩ := process_ok_length hp
      obtain ⟨h1, h2, h3, h4, h5, -, h7⟩ := new_inv hd hl h
      exact ⟨h1, h2, h4, .inr ⟨rfl, h3, h5, p1, by rw [h7, p2]; rfl⟩⟩

theorem rightDRM_inv {env : Env K} {shape : List ℕ} {rank : RankArg} {trim : Bool} {seed : ℕ}
    {kw : SketchKw K} (hkw : kw.Good) (hd : 2 ≤ shape.length) {D : DRM K}
    (h : rightDRM env shape rank trim seed kw = .ok D) :
    D.WF ∧ D.toDRMBase.Full ∧ D.transpose = true ∧
      (kw.right = some D ∧ rank = .seq D.rank.reverse ∨
       kw.right = none ∧ D.shape = shape ∧
        D.data.kind = kw.rightType.getD (kw.leftType.getD .tensorTrain) ∧
        (ranksOf rank shape.length).length + 1 = shape.length ∧
        D.rank.reverse
          = if trim then trimRanks shape (ranksOf rank shape.length) else ranksOf rank shape.length) := by
  unfold rightDRM at h
  cases hk : kw.right with
  | some D' =>
    simp only [hk] at h
    split_ifs at h with hr
    injection h with h
    subst h
    obtain ⟨h1, h2, h3⟩ := hkw.right D' hk
    exact ⟨h1, h2, h3, .inl ⟨rfl, hr.symm⟩⟩
  | none =>
    simp only [hk] at h
    cases hp : processTTRank rank shape trim with
    | error e => rw [hp] at h; cases h
    | ok r =>
      rw [hp] at h
      obtain ⟨p1, hl, p2⟩ := process_ok_length hp
      obtain ⟨h1, h2, h3, h4, h5, -, h7⟩ := new_inv hd hl h
      exact ⟨h1, h2, h4, .inr ⟨rfl, h3, h5, p1, by rw [h7, if_pos rfl, List.reverse_reverse, p2]⟩⟩

theorem contr_ok_supports {env : Env K} {D : DRM K} {X : Tensor K} {L : List (List (ND K))}
    (h : D.contr env X = .ok L) : ∀ t ∈ X.summands, D.data.supports t = true := by
  have key : ∀ t L, D.sketch env t = .ok L → D.data.supports t = true := by
    intro t L h
    unfold DRM.sketch at h
    by_contra hc
    rw [if_pos (by simpa using hc)] at h
    cases h
  unfold DRM.contr at h
  cases X with
  | leaf X =>
    intro t ht
    have : t = X := by simpa [Tensor.summands] using ht
    subst this
    match hs : D.sketch env t with
    | .ok l => exact key _ _ hs
    | .error e => simp only [hs] at h; cases h
  | sum X =>
    simp only [] at h
    split at h
    · next h' =>
      intro t ht
      exact List.all_eq_true.1 h' t ht
    · cases h

theorem Tensor.nonEmpty_summands {X : Tensor K} (h : X.NonEmpty) : X.summands ≠ [] := by
  cases X with
  | leaf X => simp [Tensor.summands]
  | sum X => exact h

theorem Tensor.valid_summands {X : Tensor K} (h : X.Valid) :
    ∀ t ∈ X.summands, t.Valid ∧ t.shape = X.shape := by
  cases X with
  | leaf X =>
    intro t ht
    have : t = X := by simpa [Tensor.summands] using ht
    subst this
    exact ⟨h, rfl⟩
  | sum X => exact h

theorem acceptsT_of {D : DRM K} {X : Tensor K} (hD : D.WF) (hf : D.toDRMBase.Full) (hX : X.Valid)
    (hs : X.shape = D.shape) (hsup : ∀ t ∈ X.summands, D.data.supports t = true) : D.AcceptsT X :=
  ⟨hD, hs, fun t ht => ⟨hD, (Tensor.valid_summands hX t ht).1,
    ((Tensor.valid_summands hX t ht).2).trans hs, hsup t ht, fun _ => hf⟩⟩

/-- What a successful `stream_sketch` has done. -/
structure Streamed (env : Env K) (X : Tensor K) (S : Sketched K) : Prop where
  accL : S.left.AcceptsT X
  accR : S.right.AcceptsT X
  fullL : S.left.toDRMBase.Full
  fullR : S.right.toDRMBase.Full
  dirL : S.left.transpose = false
  dirR : S.right.transpose = true
  ordered : RanksOrdered (X.shape.length - 1) S.left.rank S.right.rank.reverse
  sketch : S.sketch = contSum env S.left S.right X.shape X.summands

theorem trim_le {shape r : List ℕ} (h : r.length + 1 = shape.length) (k : ℕ) (hk : k < r.length) :
    (trimRanks shape r).getD k 0 ≤ r.getD k 0 := (C02 shape r h k hk).2.1

theorem stream_inv {env : Env K} {X : Tensor K} {lrank rrank : RankArg} {kw : SketchKw K} {S : Sketched K}
    (hkw : kw.Good) (hX : X.Valid) (hne : X.NonEmpty) (hd : 2 ≤ X.shape.length)
    (h : streamSketch env X lrank rrank kw = .ok S) :
    Streamed env X S ∧
    (ranksOf lrank X.shape.length).length = X.shape.length - 1 ∧
    (ranksOf rrank X.shape.length).length = X.shape.length - 1 ∧
    RanksOrdered (X.shape.length - 1) (ranksOf lrank X.shape.length) (ranksOf rrank X.shape.length) ∧
    (∀ D, kw.left = some D → S.left = D ∧ lrank = .seq D.rank) ∧
    (∀ D, kw.right = some D → S.right = D ∧ rrank = .seq D.rank.reverse) ∧
    (kw.left = none → S.left.data.kind = kw.leftType.getD (kw.rightType.getD .tensorTrain)) ∧
    (kw.right = none → S.right.data.kind = kw.rightType.getD (kw.leftType.getD .tensorTrain)) := by
  unfold streamSketch at h
  obtain ⟨lb, hlb, h⟩ := andThen_ok h
  obtain ⟨rb, hrb, h⟩ := andThen_ok h
  split at h
  · cases h
  next hb =>
  obtain ⟨l, hl, h⟩ := andThen_ok h
  obtain ⟨r, hr, h⟩ := andThen_ok h
  obtain ⟨s, hs, h⟩ := andThen_ok h
  injection h with h
  subst h
  obtain ⟨l1, l2, l3, l4⟩ := leftDRM_inv hkw hd hl
  obtain ⟨r1, r2, r3, r4⟩ := rightDRM_inv hkw hd hr
  have hc := hs
  unfold generalSketch at hc
  obtain ⟨lc, c1, hc⟩ := andThen_ok hc
  obtain ⟨rc, c2, hc⟩ := andThen_ok hc
  obtain ⟨t0, ht0⟩ := List.exists_mem_of_ne_nil _ (Tensor.nonEmpty_summands hne)
  have hsl : X.shape = l.shape := by
    rw [← (Tensor.valid_summands hX t0 ht0).2]; exact contr_ok_shape c1 t0 ht0
  have hsr : X.shape = r.shape := by
    rw [← (Tensor.valid_summands hX t0 ht0).2]; exact contr_ok_shape c2 t0 ht0
  have accL := acceptsT_of l1 l2 hX hsl (contr_ok_supports c1)
  have accR := acceptsT_of r1 r2 hX hsr (contr_ok_supports c2)
  have lenL := l1.rankLen
  have lenR := r1.rankLen
  rw [← hsl] at lenL
  rw [← hsr] at lenR
  have la : (ranksOf lrank X.shape.length).length = X.shape.length - 1 := by
    rcases l4 with ⟨-, rfl⟩ | ⟨-, -, -, h, -⟩
    · exact lenL
    · omega
  have lb' : (ranksOf rrank X.shape.length).length = X.shape.length - 1 := by
    rcases r4 with ⟨-, rfl⟩ | ⟨-, -, -, h, -⟩
    · show r.rank.reverse.length = _
      rw [List.length_reverse]; exact lenR
    · omega
  have e1 := ranksLess_eq hd lb' la
  have e2 := ranksLess_eq hd la lb'
  rw [hlb] at e1
  rw [hrb] at e2
  injection e1 with e1
  injection e2 with e2
  have hord : RanksOrdered (X.shape.length - 1) (ranksOf lrank X.shape.length) (ranksOf rrank X.shape.length) := by
    by_cases hrb' : rb = true
    · left; rw [hrb'] at e2; simpa using e2.symm
    · right
      have : lb = true := by
        by_contra hlb'
        exact hb ⟨by simpa using hlb', by simpa using hrb'⟩
      rw [this] at e1; simpa using e1.symm
  have gl : ∀ k < X.shape.length - 1, l.rank.getD k 0 ≤ (ranksOf lrank X.shape.length).getD k 0 ∧
      (rb = false → l.rank.getD k 0 = (ranksOf lrank X.shape.length).getD k 0) := by
    intro k hk
    rcases l4 with ⟨-, rfl⟩ | ⟨-, -, -, h, e⟩
    · exact ⟨le_refl _, fun _ => rfl⟩
    · rw [e]
      split
      · next h' => exact ⟨trim_le h k (by omega), fun h'' => by rw [h''] at h'; cases h'⟩
      · exact ⟨le_refl _, fun _ => rfl⟩
  have gr : ∀ k < X.shape.length - 1, r.rank.reverse.getD k 0 ≤ (ranksOf rrank X.shape.length).getD k 0 ∧
      (lb = false → r.rank.reverse.getD k 0 = (ranksOf rrank X.shape.length).getD k 0) := by
    intro k hk
    rcases r4 with ⟨-, rfl⟩ | ⟨-, -, -, h, e⟩
    · exact ⟨le_refl _, fun _ => rfl⟩
    · rw [e]
      split
      · next h' => exact ⟨trim_le h k (by omega), fun h'' => by rw [h''] at h'; cases h'⟩
      · exact ⟨le_refl _, fun _ => rfl⟩
  have hord' : RanksOrdered (X.shape.length - 1) l.rank r.rank.reverse := by
    rcases hord with ho | ho
    · left
      intro k hk
      have hlb' : lb = false := by
        rw [e1, decide_eq_false_iff_not]
        intro hall
        have := ho k hk; have := hall k hk; omega
      have := gl k hk; have := (gr k hk).2 hlb'; have := ho k hk; omega
    · right
      intro k hk
      have hrb' : rb = false := by
        rw [e2, decide_eq_false_iff_not]
        intro hall
        have := ho k hk; have := hall k hk; omega
      have := gr k hk; have := (gl k hk).2 hrb'; have := ho k hk; omega
  refine ⟨⟨accL, accR, l2, r2, l3, r3, hord', ?_⟩, la, lb', hord, ?_, ?_, ?_, ?_⟩
  · have := streaming_sum (env := env) accL accR l3 r3
    rw [hs] at this
    injection this
  · intro D hD
    rcases l4 with ⟨h1, h2⟩ | ⟨h1, -⟩
    · rw [hD] at h1; injection h1 with h1; subst h1; exact ⟨rfl, h2⟩
    · rw [hD] at h1; cases h1
  · intro D hD
    rcases r4 with ⟨h1, h2⟩ | ⟨h1, -⟩
    · rw [hD] at h1; injection h1 with h1; subst h1; exact ⟨rfl, h2⟩
    · rw [hD] at h1; cases h1
  · intro hD
    rcases l4 with ⟨h1, h2⟩ | ⟨-, -, h1, -⟩
    · rw [hD] at h1; cases h1
    · exact h1
  · intro hD
    rcases r4 with ⟨h1, h2⟩ | ⟨-, -, h1, -⟩
    · rw [hD] at h1; cases h1
    · exact h1

/-- `stream_sketch` with supplied DRMs succeeds. -/
theorem stream_supplied {env : Env K} {X : Tensor K} {l r : DRM K} (seed : Option ℕ) (lt rt : Option DRMKind)
    (hl : l.AcceptsT X) (hr : r.AcceptsT X) (hlt : l.transpose = false) (hrt : r.transpose = true)
    (ho : RanksOrdered (X.shape.length - 1) l.rank r.rank.reverse) :
    streamSketch env X (.seq l.rank) (.seq r.rank.reverse) ⟨seed, lt, rt, some l, some r⟩
      = .ok ⟨contSum env l r X.shape X.summands, l, r⟩ := by
  obtain ⟨h1, h2⟩ := hl.ranks hr
  have hd : 2 ≤ X.shape.length := by rw [hl.shape]; exact hl.wf.two
  have e1 := ranksLess_eq (a := .seq r.rank.reverse) (b := .seq l.rank) hd h2 h1
  have e2 := ranksLess_eq (a := .seq l.rank) (b := .seq r.rank.reverse) hd h1 h2
  unfold streamSketch
  rw [e1, e2]
  simp only [Except.andThen]
  rw [if_neg]
  · simp only [leftDRM, rightDRM, if_true]
    rw [streaming_sum hl hr hlt hrt]
  · rw [decide_eq_false_iff_not, decide_eq_false_iff_not]
    rintro ⟨n1, n2⟩
    rcases ho with ho | ho
    · exact n2 ho
    · exact n1 ho

/-- `stream_sketch` with freshly made DRMs succeeds. -/
theorem stream_fresh {env : Env K} {X : Tensor K} (lrank rrank : RankArg) (seed : Option ℕ)
    (lt rt : Option DRMKind) (hX : X.Valid) (hd : 2 ≤ X.shape.length)
    (hl : (ranksOf lrank X.shape.length).length = X.shape.length - 1)
    (hr : (ranksOf rrank X.shape.length).length = X.shape.length - 1)
    (ho : RanksOrdered (X.shape.length - 1) (ranksOf lrank X.shape.length) (ranksOf rrank X.shape.length))
    (hseed : seed.getD 0 < 2 ^ 32)
    (hsup : ∀ t ∈ X.summands, ∀ D : DRMData K, (D.kind = lt.getD (rt.getD .tensorTrain) ∨
      D.kind = rt.getD (lt.getD .tensorTrain)) → D.supports t = true) :
    ∃ S, streamSketch env X lrank rrank { seed := seed, leftType := lt, rightType := rt } = .ok S := by
  have e1 := ranksLess_eq hd hr hl
  have e2 := ranksLess_eq hd hl hr
  have proc : ∀ (rank : RankArg) (trim : Bool),
      (ranksOf rank X.shape.length).length = X.shape.length - 1 →
      ∃ r, processTTRank rank X.shape trim = .ok r ∧ r.length = X.shape.length - 1 := by
    intro rank trim h
    rcases C01_length rank X.shape trim with ⟨r, hp, hl⟩ | hp
    · exact ⟨r, hp, by omega⟩
    · rw [process_eq, if_neg (by omega)] at hp
      split_ifs at hp
  unfold streamSketch
  rw [e1, e2]
  simp only [Except.andThen]
  rw [if_neg]
  · have hfs : seed.getD (env.freshSeed % 2 ^ 32) < 2 ^ 32 := by
      cases seed with
      | none => exact Nat.mod_lt _ (by norm_num)
      | some s => exact hseed
    generalize seed.getD (env.freshSeed % 2 ^ 32) = sd at hfs
    generalize decide (∀ k < X.shape.length - 1, (ranksOf lrank X.shape.length).getD k 0
      < (ranksOf rrank X.shape.length).getD k 0) = tl
    generalize decide (∀ k < X.shape.length - 1, (ranksOf rrank X.shape.length).getD k 0
      < (ranksOf lrank X.shape.length).getD k 0) = tr
    obtain ⟨rl, p1, p2⟩ := proc lrank tl hl
    obtain ⟨rr, p3, p4⟩ := proc rrank tr hr
    simp only [leftDRM, rightDRM, p1, p3]
    obtain ⟨L, h1, h2, h3, h4, h5, h6, -⟩ := C29_new env (lt.getD (rt.getD .tensorTrain)) (.seq rl) X.shape false
      (some sd) hd p2 (fun _ => hfs)
    obtain ⟨R, k1, k2, k3, k4, k5, k6, -⟩ := C29_new env (rt.getD (lt.getD .tensorTrain)) (.seq rr) X.shape true
      (some (((sd : ℤ) + env.strHash X.shape.length) % 2 ^ 32).toNat) hd p4 (fun _ => by
        show (((sd : ℤ) + env.strHash X.shape.length) % 2 ^ 32).toNat < 2 ^ 32
        have := Int.emod_lt_of_pos ((sd : ℤ) + env.strHash X.shape.length) (b := 2 ^ 32) (by norm_num)
        have := Int.emod_nonneg ((sd : ℤ) + env.strHash X.shape.length) (b := 2 ^ 32) (by norm_num)
        omega)
    rw [h1, k1]
    simp only []
    rw [streaming_sum (acceptsT_of h2 h3 hX h4.symm fun t ht => hsup t ht _ (.inl h6))
      (acceptsT_of k2 k3 hX k4.symm fun t ht => hsup t ht _ (.inr k6)) h5 k5]
    exact ⟨_, rfl⟩
  · simp only [decide_eq_false_iff_not]
    rintro ⟨n1, n2⟩
    rcases ho with ho | ho
    · exact n2 ho
    · exact n1 ho

end TTS
