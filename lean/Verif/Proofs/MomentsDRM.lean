import Verif.Proofs.Moments
import Verif.Proofs.ProbSketch

/-!
# Second moments of freshly made DRMs
-/

namespace TTS

open Finset MeasureTheory ProbabilityTheory Props

variable {Ω : Type*} [MeasurableSpace Ω] {P : Measure Ω} {g : Ω → Draw → ℝ}

theorem pos_lt {a j r n : ℕ} (ha : a < r) (hj : j < n) : a * n + j < r * n := by
  calc a * n + j < a * n + n := by omega
    _ = (a + 1) * n := by ring
    _ ≤ r * n := Nat.mul_le_mul_right _ ha

theorem IsoOn.congr {T : Finset Draw} {sh : List ℕ} {r : ℕ} {v : ℝ} {M M' : (Draw → ℝ) → List ℕ → ℕ → ℝ}
    (h : IsoOn P g T sh r v M) (e : ∀ g p a, InR sh p → a < r → M' g p a = M g p a) : IsoOn P g T sh r v M' where
  poly p a hp ha := (h.poly p a hp ha).congr fun g => e g p a hp ha
  integrable p q a b hp hq ha hb := (h.integrable p q a b hp hq ha hb).congr (Filter.Eventually.of_forall fun ω => by
    beta_reduce; rw [e _ _ _ hp ha, e _ _ _ hq hb])
  moment p q a b hp hq ha hb := by
    rw [← h.moment p q a b hp hq ha hb]
    congr 1
    funext ω
    rw [e _ _ _ hp ha, e _ _ _ hq hb]

theorem IsoOn.reindex {T : Finset Draw} {sh sh' : List ℕ} {r : ℕ} {v : ℝ} {M : (Draw → ℝ) → List ℕ → ℕ → ℝ}
    (h : IsoOn P g T sh r v M) (σ : List ℕ → List ℕ) (hσ : ∀ p, InR sh' p → InR sh (σ p))
    (hinj : ∀ p q, InR sh' p → InR sh' q → σ p = σ q → p = q) : IsoOn P g T sh' r v fun g p a => M g (σ p) a where
  poly p a hp ha := h.poly _ a (hσ p hp) ha
  integrable p q a b hp hq ha hb := h.integrable _ _ a b (hσ p hp) (hσ q hq) ha hb
  moment p q a b hp hq ha hb := by
    rw [h.moment _ _ a b (hσ p hp) (hσ q hq) ha hb]
    by_cases hh : p = q ∧ a = b
    · rw [if_pos hh, if_pos (by rw [hh.1, hh.2]; exact ⟨rfl, rfl⟩)]
    · rw [if_neg hh, if_neg fun h' => hh ⟨hinj p q hp hq h'.1, h'.2⟩]

/-- draws made by a DRM with this seed for tensors of this shape, in one direction -/
def DrawnBy (env : Env ℝ) (own : List ℕ) (seed : ℕ) (T : Finset Draw) : Prop :=
  Draw.Compatible T ∧ ∀ x ∈ T, match x with
    | .normal s _ _ => ∃ i < own.length, s = env.genState (seed % (2 ^ 32 - 1)) own.length i
    | .stream s _ => ∃ i < own.length - 1,
        s = (seed % (2 ^ 32 - 1) + env.seedOffset (some seed) (own.take (i + 1)).prod) % (2 ^ 32 - 1)

theorem drawnBy_apart {env : Env ℝ} {shape : List ℕ} {sl sr : ℕ} (h : env.SeedsApart shape sl sr) {T T' : Finset Draw}
    (hT : DrawnBy env shape sl T) (hT' : DrawnBy env shape.reverse sr T') : Disjoint T T' ∧ Draw.Compatible (T ∪ T') := by
  have key : ∀ x ∈ T, ∀ y ∈ T', (∀ s n k s' n' k', x = .normal s n k → y = .normal s' n' k' → s ≠ s') ∧ x ≠ y := by
    intro x hx y hy
    have h1 := hT.2 x hx
    have h2 := hT'.2 y hy
    cases x with
    | normal s n k => cases y with
      | normal s' n' k' =>
        obtain ⟨i, hi, e1⟩ := h1
        obtain ⟨j, hj, e2⟩ := h2
        rw [List.length_reverse] at hj e2
        have hs : s ≠ s' := by rw [e1, e2]; exact h.states i hi j hj
        refine ⟨?_, fun e => hs (Draw.normal.inj e).1⟩
        intro _ _ _ _ _ _ a b
        rw [← (Draw.normal.inj a).1, ← (Draw.normal.inj b).1]
        exact hs
      | stream s' k' => exact ⟨fun _ _ _ _ _ _ _ b => Draw.noConfusion b, fun h => Draw.noConfusion h⟩
    | stream s k => cases y with
      | normal s' n' k' => exact ⟨fun _ _ _ _ _ _ a => Draw.noConfusion a, fun h => Draw.noConfusion h⟩
      | stream s' k' =>
        obtain ⟨i, hi, e1⟩ := h1
        obtain ⟨j, hj, e2⟩ := h2
        rw [List.length_reverse] at hj
        refine ⟨fun _ _ _ _ _ _ a => Draw.noConfusion a, fun e => h.streams i hi j hj ?_⟩
        rw [← e1, ← e2, (Draw.stream.inj e).1]
  refine ⟨Finset.disjoint_left.2 fun x hx hx' => (key x hx x hx').2 rfl, ?_⟩
  intro s n k n' k' h1 h2
  rcases mem_union.1 h1 with h1 | h1 <;> rcases mem_union.1 h2 with h2 | h2
  · exact hT.1 s n k n' k' h1 h2
  · exact absurd rfl ((key _ h1 _ h2).1 _ _ _ _ _ _ rfl rfl)
  · exact absurd rfl ((key _ h2 _ h1).1 _ _ _ _ _ _ rfl rfl)
  · exact hT'.1 s n k n' k' h1 h2

theorem drawnBy_empty (env : Env ℝ) (own : List ℕ) (seed : ℕ) : DrawnBy env own seed ∅ :=
  ⟨fun _ _ _ _ _ h => absurd h (by simp), fun _ h => absurd h (by simp)⟩

theorem drmBond_pos {tr : List ℕ} (h : ∀ x ∈ tr, 0 < x) {k : ℕ} (hk : k ≤ tr.length) : 0 < drmBond tr k := by
  unfold drmBond
  rw [getD_eq (by simp; omega)]
  have := List.getElem_mem (l := 1 :: tr ++ [1]) (n := k) (by simp; omega)
  generalize (1 :: tr ++ [1])[k]'_ = y at this
  simp only [List.cons_append, List.mem_cons, List.mem_append, List.not_mem_nil, or_false] at this
  rcases this with rfl | h' | rfl
  · omega
  · exact h _ h'
  · omega

/-- Draws behind arrays of three axes: number `k` has shape `(rk k, n k, rk (k+1))` and seed `st k`. -/
def chainDraws (rk n st : ℕ → ℕ) (m : ℕ) : Finset Draw :=
  (range m).biUnion fun k => (range (rk k * n k * rk (k + 1))).image fun pos =>
    Draw.normal (st k) (rk k * n k * rk (k + 1)) pos

theorem chainDraws_succ (rk n st : ℕ → ℕ) (m : ℕ) : chainDraws rk n st (m + 1)
    = chainDraws rk n st m ∪ (range (rk m * n m * rk (m + 1))).image fun pos =>
      Draw.normal (st m) (rk m * n m * rk (m + 1)) pos := by
  unfold chainDraws
  rw [range_add_one, biUnion_insert, union_comm]

theorem chainDraws_compatible (rk n st : ℕ → ℕ) (m : ℕ) (hdis : ∀ i < m, ∀ j < m, st i = st j → i = j) :
    Draw.Compatible (chainDraws rk n st m) := by
  intro s n1 k1 n2 k2 h1 h2
  simp only [chainDraws, mem_biUnion, mem_range, mem_image, Draw.normal.injEq] at h1 h2
  obtain ⟨i, hi, _, _, e1, e2, _⟩ := h1
  obtain ⟨j, hj, _, _, f1, f2, _⟩ := h2
  have := hdis i hi j hj (e1.trans f1.symm)
  subst this
  rw [← e2, ← f2]

theorem chainDraws_disjoint (rk n st : ℕ → ℕ) (m : ℕ) (hdis : ∀ i < m + 1, ∀ j < m + 1, st i = st j → i = j) :
    Disjoint (chainDraws rk n st m) ((range (rk m * n m * rk (m + 1))).image fun pos =>
      Draw.normal (st m) (rk m * n m * rk (m + 1)) pos) := by
  rw [Finset.disjoint_left]
  intro x h1 h2
  simp only [chainDraws, mem_biUnion, mem_range, mem_image] at h1 h2
  obtain ⟨i, hi, _, _, rfl⟩ := h1
  obtain ⟨_, _, e⟩ := h2
  have := hdis m (by omega) i (by omega) (Draw.normal.inj e).1
  omega

/-- The partial products of scaled random cores. -/
theorem chain_iso (hg : StandardDraws P g) (sh : List ℕ) (rk st : ℕ → ℕ) (c : ℕ → ℝ) (h0 : rk 0 = 1) (m : ℕ)
    (hm : m ≤ sh.length) (hdis : ∀ i < m, ∀ j < m, st i = st j → i = j) :
    IsoOn P g (chainDraws rk (fun k => sh.getD k 0) st m) (sh.take m) (rk m) (∏ k ∈ range m, (rk k * c k ^ 2))
      (fun g => prodTo rk (fun k a i b => g (.normal (st k) (rk k * sh.getD k 0 * rk (k + 1))
        ((a * sh.getD k 0 + i) * rk (k + 1) + b)) * c k) m) := by
  induction m with
  | zero =>
    have := IsoOn.one (P := P) (g := g) hg
    rw [prod_range_zero, h0]
    exact this
  | succ m ih =>
    have ih := ih (by omega) fun i hi j hj => hdis i (by omega) j (by omega)
    have hlt : m < sh.length := by omega
    have hcomp := chainDraws_compatible rk (fun k => sh.getD k 0) st (m + 1) hdis
    rw [chainDraws_succ] at hcomp
    rw [chainDraws_succ, take_succ_getD hlt 0, prod_range_succ]
    refine ih.step (n := sh.getD m 0) (r' := rk (m + 1)) (c := c m) hg (chainDraws_disjoint _ _ _ _ hdis) hcomp
      (fun a i b => .normal (st m) (rk m * sh.getD m 0 * rk (m + 1)) ((a * sh.getD m 0 + i) * rk (m + 1) + b)) ?_ ?_ _ ?_
    · intro a ha i hi b hb
      simp only [mem_image, mem_range]
      exact ⟨_, pos_lt (pos_lt ha hi) hb, rfl⟩
    · intro a ha i hi b hb a' ha' i' hi' b' hb' e
      have e := (Draw.normal.inj e).2.2
      have e1 : b = b' := by rw [← mul_add_mod' (a := a * sh.getD m 0 + i) hb, e, mul_add_mod' hb']
      have e2 : a * sh.getD m 0 + i = a' * sh.getD m 0 + i' := by
        rw [← mul_add_div (a := a * sh.getD m 0 + i) hb, e, mul_add_div hb']
      exact ⟨by rw [← mul_add_div (a := a) hi, e2, mul_add_div hi'], by rw [← mul_add_mod' (a := a) hi, e2, mul_add_mod' hi'], e1⟩
    · intro g p i b hp hi hb
      have hlen : p.length = m := by rw [hp.length, List.length_take]; omega
      simp only [prodTo]
      rw [List.take_left' hlen, getD_snoc hlen]

/-- The partial products of the cores of a DRM. -/
theorem prodTo_iso (hg : StandardDraws P g) (env : Env ℝ) (hinv : ∀ r, 0 < r → env.invSqrt r ^ 2 * r = 1)
    (own tr : List ℕ) (hl : tr.length = own.length - 1) (hpos : ∀ x ∈ tr, 0 < x) (seed : ℕ)
    (hdis : ∀ i < own.length - 1, ∀ j < own.length - 1,
      env.genState seed own.length i = env.genState seed own.length j → i = j) (m : ℕ) (hm : m ≤ own.length - 1) :
    IsoOn P g (coreDraws env own tr seed m) (own.take m) (drmBond tr m) 1
      (fun g => prodTo (drmBond tr) (fun k a i b => g (coreDraw env own tr seed k a i b) * env.invSqrt (drmBond tr k)) m) := by
  have := chain_iso hg own (drmBond tr) (env.genState seed own.length) (fun k => env.invSqrt (drmBond tr k)) rfl m (by omega)
    fun i hi j hj => hdis i (by omega) j (by omega)
  have e : ∏ k ∈ range m, ((drmBond tr k : ℕ) * env.invSqrt (drmBond tr k) ^ 2) = 1 :=
    prod_eq_one fun k hk => by
      rw [mul_comm]; exact hinv _ (drmBond_pos hpos (by have := mem_range.1 hk; omega))
  rw [e] at this
  exact this

/-- The entries of a freshly made DRM are uncorrelated and have mean square one. -/
theorem made_iso (hg : StandardDraws P g) (env : Env ℝ) (hinv : ∀ r, 0 < r → env.invSqrt r ^ 2 * r = 1)
    (kind : DRMKind) (hk : kind.Drawn) (shape : List ℕ) (t : Bool) (r : List ℕ) (hl : r.length = shape.length - 1)
    (hpos : ∀ x ∈ r, 0 < x) (seed : ℕ) (hdis : env.DistinctStates seed shape.length) (k : ℕ) (hk' : k < shape.length - 1) :
    ∃ T, DrawnBy env (rev? t shape) seed T ∧ IsoOn P g T ((rev? t shape).take (k + 1)) ((rev? t r).getD k 0) 1
      fun g p a => (madeDRM (env.withDraws g) kind shape t seed r).entry (env.withDraws g) k p a := by
  have hlen : (rev? t shape).length = shape.length := rev?_length _ _
  have hlr : (rev? t r).length = shape.length - 1 := by rw [rev?_length, hl]
  rcases hk with rfl | rfl
  · have hposr : ∀ x ∈ rev? t r, 0 < x := by
      intro x hx
      refine hpos x ?_
      cases t
      · exact hx
      · exact List.mem_reverse.1 hx
    refine ⟨coreDraws env (rev? t shape) (rev? t r) (seed % (2 ^ 32 - 1)) (k + 1), ⟨?_, ?_⟩, ?_⟩
    · exact coreDraws_compatible _ _ _ _ _ fun i hi j hj => by
        rw [hlen]; exact hdis i (by omega) j (by omega)
    · intro x hx
      simp only [coreDraws, mem_biUnion, mem_range, mem_image] at hx
      obtain ⟨i, hi, _, _, rfl⟩ := hx
      exact ⟨i, by omega, rfl⟩
    · have := prodTo_iso hg env hinv (rev? t shape) (rev? t r) (by omega) hposr (seed % (2 ^ 32 - 1))
        (fun i hi j hj => by rw [hlen]; exact hdis i (by omega) j (by omega)) (k + 1) (by omega)
      rw [bondOf_succ (by omega)] at this
      refine this.congr fun g p a hp ha => ?_
      beta_reduce
      rw [made_tt_entry]
      have hlp : p.length = k + 1 := by rw [hp.length, List.length_take]; omega
      have hb : drmBond (rev? t r) (k + 1) = (rev? t r).getD k 0 := bondOf_succ (by omega)
      rw [drm_prodTo (k + 1) (by omega) p hlp a (by omega)]
      refine prodTo_congr_on (sh := rev? t shape) (by omega) (fun k' hk' a ha i hi b hb => ?_) p hp a (by omega)
      exact drmCore_get env g _ _ _ _ ha hi hb
  · obtain ⟨s, hs0, hs⟩ : ∃ s, s = (seed % (2 ^ 32 - 1) + env.seedOffset (some seed) ((rev? t shape).take (k + 1)).prod)
        % (2 ^ 32 - 1) ∧ ∀ g p a, InR ((rev? t shape).take (k + 1)) p → a < (rev? t r).getD k 0 →
      (madeDRM (env.withDraws g) .denseGaussian shape t seed r).entry (env.withDraws g) k p a
        = g (.stream s (a * ((rev? t shape).take (k + 1)).prod + ravel ((rev? t shape).take (k + 1)) p)) :=
      ⟨_, rfl, made_dense_entry' env shape t seed r k hk'⟩
    set N := ((rev? t shape).take (k + 1)).prod with hN
    refine ⟨(range ((rev? t r).getD k 0 * N)).image fun pos => Draw.stream s pos, ⟨?_, ?_⟩, ?_⟩
    · intro _ _ _ _ _ h; simp at h
    · intro x hx
      simp only [mem_image, mem_range] at hx
      obtain ⟨_, _, rfl⟩ := hx
      exact ⟨k, by omega, hs0⟩
    · have := IsoOn.draws (P := P) (g := g) hg (T := (range ((rev? t r).getD k 0 * N)).image fun pos => Draw.stream s pos)
        (by intro _ _ _ _ _ h; simp at h) (sh := (rev? t shape).take (k + 1)) (r := (rev? t r).getD k 0)
        (fun p a => Draw.stream s (a * N + ravel ((rev? t shape).take (k + 1)) p)) 1 ?_ ?_ (fun g p a => (madeDRM (env.withDraws g) .denseGaussian shape t seed r).entry (env.withDraws g) k p a) ?_
      rotate_left
      · intro p a hp ha
        simp only [mem_image, mem_range]
        exact ⟨_, pos_lt ha (ravel_lt hp), rfl⟩
      · intro p q a b hp hq ha hb e
        have e := (Draw.stream.inj e).2
        refine ⟨?_, by rw [← mul_add_div (a := a) (ravel_lt hp), e, mul_add_div (ravel_lt hq)]⟩
        have e2 : ravel ((rev? t shape).take (k + 1)) p = ravel ((rev? t shape).take (k + 1)) q := by
          rw [← mul_add_mod' (a := a) (ravel_lt hp), e, mul_add_mod' (ravel_lt hq)]
        rw [← unravel_ravel hp, e2, unravel_ravel hq]
      · intro g p a hp ha
        beta_reduce
        rw [hs g p a hp ha, mul_one]
      rwa [one_pow] at this

/-- The matrices of a left DRM. -/
theorem left_iso (hg : StandardDraws P g) (env : Env ℝ) (hinv : ∀ r, 0 < r → env.invSqrt r ^ 2 * r = 1)
    (kind : DRMKind) (hk : kind.Drawn) (shape : List ℕ) (r : List ℕ) (hl : r.length = shape.length - 1)
    (hpos : ∀ x ∈ r, 0 < x) (seed : ℕ) (hdis : env.DistinctStates seed shape.length) (k : ℕ) (hk' : k ≤ shape.length - 1) :
    ∃ T, DrawnBy env shape seed T ∧ IsoOn P g T (shape.take k) ((1 :: r).getD k 0) 1
      fun g => (madeDRM (env.withDraws g) kind shape false seed r).leftMats (env.withDraws g) k := by
  cases k with
  | zero => exact ⟨∅, drawnBy_empty _ _ _, IsoOn.one hg⟩
  | succ k => exact made_iso hg env hinv kind hk shape false r hl hpos seed hdis k (by omega)

/-- The matrices of a right DRM, with the columns in any order. -/
theorem right_iso_perm (hg : StandardDraws P g) (env : Env ℝ) (hinv : ∀ r, 0 < r → env.invSqrt r ^ 2 * r = 1)
    (kind : DRMKind) (hk : kind.Drawn) (shape : List ℕ) (r : List ℕ) (hl : r.length = shape.length - 1)
    (hpos : ∀ x ∈ r, 0 < x) (seed : ℕ) (hdis : env.DistinctStates seed shape.length) (k : ℕ) (hk' : k < shape.length)
    (σ : List ℕ → List ℕ) (hσ : ∀ p, InR (shape.drop (k + 1)) p → InR (shape.drop (k + 1)).reverse (σ p))
    (hinj : ∀ p q, InR (shape.drop (k + 1)) p → InR (shape.drop (k + 1)) q → σ p = σ q → p = q) :
    ∃ T, DrawnBy env shape.reverse seed T ∧ IsoOn P g T (shape.drop (k + 1)) ((r ++ [1]).getD k 0) 1
      fun g q b => if k + 1 = shape.length then 1 else (madeDRM (env.withDraws g) kind shape true seed r).entry
        (env.withDraws g) (shape.length - 1 - (k + 1)) (σ q) b := by
  by_cases hlast : k + 1 = shape.length
  · refine ⟨∅, drawnBy_empty _ _ _, ?_⟩
    have e : (r ++ [1]).getD k 0 = 1 := by
      have : k = r.length := by omega
      subst this; simp
    rw [e, List.drop_of_length_le (by omega)]
    exact (IsoOn.one hg).congr fun _ _ _ _ _ => if_pos hlast
  · obtain ⟨T, h1, h2⟩ := made_iso hg env hinv kind hk shape true r hl hpos seed hdis (shape.length - 1 - (k + 1)) (by omega)
    refine ⟨T, h1, ?_⟩
    have e0 : (rev? true shape).take (shape.length - 1 - (k + 1) + 1) = (shape.drop (k + 1)).reverse := by
      show shape.reverse.take _ = _
      rw [List.take_reverse]; congr 2; omega
    have e2 : (rev? true r).getD (shape.length - 1 - (k + 1)) 0 = (r ++ [1]).getD k 0 := by
      rw [rev?_getD _ _ _ (by omega), List.getD_append _ _ _ _ (by omega)]
      congr 1
      simp; omega
    rw [e0, e2] at h2
    exact (h2.reindex σ hσ hinj).congr fun _ _ _ _ _ => if_neg hlast

theorem right_iso (hg : StandardDraws P g) (env : Env ℝ) (hinv : ∀ r, 0 < r → env.invSqrt r ^ 2 * r = 1)
    (kind : DRMKind) (hk : kind.Drawn) (shape : List ℕ) (r : List ℕ) (hl : r.length = shape.length - 1)
    (hpos : ∀ x ∈ r, 0 < x) (seed : ℕ) (hdis : env.DistinctStates seed shape.length) (k : ℕ) (hk' : k < shape.length) :
    ∃ T, DrawnBy env shape.reverse seed T ∧ IsoOn P g T (shape.drop (k + 1)) ((r ++ [1]).getD k 0) 1
      fun g => (madeDRM (env.withDraws g) kind shape true seed r).rightMats (env.withDraws g) (k + 1) :=
  right_iso_perm hg env hinv kind hk shape r hl hpos seed hdis k hk' List.reverse (fun _ h => h.reverse)
    fun _ _ _ _ h => List.reverse_injective h

theorem right_iso_dense (hg : StandardDraws P g) (env : Env ℝ) (hinv : ∀ r, 0 < r → env.invSqrt r ^ 2 * r = 1)
    (kind : DRMKind) (hk : kind.Drawn) (shape : List ℕ) (r : List ℕ) (hl : r.length = shape.length - 1)
    (hpos : ∀ x ∈ r, 0 < x) (seed : ℕ) (hdis : env.DistinctStates seed shape.length) (k : ℕ) (hk' : k < shape.length) :
    ∃ T, DrawnBy env shape.reverse seed T ∧ IsoOn P g T (shape.drop (k + 1)) ((r ++ [1]).getD k 0) 1
      fun g => (madeDRM (env.withDraws g) kind shape true seed r).rightMatsDense (env.withDraws g) (k + 1) := by
  have hlt : ∀ p, InR (shape.drop (k + 1)) p → ravel (shape.drop (k + 1)) p < (shape.drop (k + 1)).reverse.prod := by
    intro p hp
    rw [List.prod_reverse]; exact ravel_lt hp
  refine right_iso_perm hg env hinv kind hk shape r hl hpos seed hdis k hk'
    (fun q => unravel (shape.drop (k + 1)).reverse (ravel (shape.drop (k + 1)) q)) (fun p hp => unravel_inR (hlt p hp))
    fun p q hp hq h => ?_
  have := congrArg (ravel (shape.drop (k + 1)).reverse) h
  beta_reduce at this
  rw [ravel_unravel (hlt p hp), ravel_unravel (hlt q hq)] at this
  rw [← unravel_ravel hp, this, unravel_ravel hq]

/-- Integrals of sums over multi-indices. -/
theorem integrable_sumIdx (sh : List ℕ) (f : List ℕ → Ω → ℝ) (hf : ∀ p, InR sh p → Integrable (f p) P) :
    Integrable (fun ω => sumIdx sh fun p => f p ω) P ∧ ∫ ω, (sumIdx sh fun p => f p ω) ∂P = sumIdx sh fun p => ∫ ω, f p ω ∂P := by
  have e : ∀ h : List ℕ → ℝ, sumIdx sh h = ∑ i ∈ range sh.prod, h (unravel sh i) := fun h => (sum_unravel sh h).symm
  have hi : ∀ i ∈ range sh.prod, Integrable (f (unravel sh i)) P := fun i hi => hf _ (unravel_inR (mem_range.1 hi))
  simp only [e]
  exact ⟨integrable_finsetSum _ hi, integral_finsetSum _ hi⟩

/-- Contraction with independent isotropic matrices from both sides. -/
theorem bilinear_moment (hg : StandardDraws P g) {T T' : Finset Draw} (hTT : Disjoint T T') (hc : Draw.Compatible (T ∪ T'))
    {shL shR : List ℕ} {l r : ℕ} {L R : (Draw → ℝ) → List ℕ → ℕ → ℝ} (hL : IsoOn P g T shL l 1 L)
    (hR : IsoOn P g T' shR r 1 R) (x y : List ℕ → List ℕ → ℝ) {a a' b b' : ℕ} (ha : a < l) (ha' : a' < l) (hb : b < r)
    (hb' : b' < r) :
    Integrable (fun ω => (sumIdx shL fun p => sumIdx shR fun q => L (g ω) p a * x p q * R (g ω) q b)
      * (sumIdx shL fun p => sumIdx shR fun q => L (g ω) p a' * y p q * R (g ω) q b')) P ∧
    ∫ ω, (sumIdx shL fun p => sumIdx shR fun q => L (g ω) p a * x p q * R (g ω) q b)
      * (sumIdx shL fun p => sumIdx shR fun q => L (g ω) p a' * y p q * R (g ω) q b') ∂P
      = if a = a' ∧ b = b' then (sumIdx shL fun p => sumIdx shR fun q => x p q * y p q) else 0 := by
  have term : ∀ p q p' q', InR shL p → InR shR q → InR shL p' → InR shR q' →
      Integrable (fun ω => ((L (g ω) p a * L (g ω) p' a') * (R (g ω) q b * R (g ω) q' b')) * (x p q * y p' q')) P ∧
      ∫ ω, ((L (g ω) p a * L (g ω) p' a') * (R (g ω) q b * R (g ω) q' b')) * (x p q * y p' q') ∂P
        = ((if p = p' ∧ a = a' then 1 else 0) * (if q = q' ∧ b = b' then 1 else 0)) * (x p q * y p' q') := by
    intro p q p' q' hp hq hp' hq'
    have := PolyOn.integral_mul (f := fun g => L g p a * L g p' a') (h := fun g => R g q b * R g q' b') hg hTT hc
      ((hL.poly p a hp ha).mul (hL.poly p' a' hp' ha')) ((hR.poly q b hq hb).mul (hR.poly q' b' hq' hb'))
      (hL.integrable p p' a a' hp hp' ha ha') (hR.integrable q q' b b' hq hq' hb hb')
    refine ⟨this.1.mul_const _, ?_⟩
    rw [integral_mul_const, this.2, hL.moment p p' a a' hp hp' ha ha', hR.moment q q' b b' hq hq' hb hb']
  have expand : (fun ω => (sumIdx shL fun p => sumIdx shR fun q => L (g ω) p a * x p q * R (g ω) q b)
      * (sumIdx shL fun p => sumIdx shR fun q => L (g ω) p a' * y p q * R (g ω) q b'))
      = fun ω => sumIdx shL fun p => sumIdx shR fun q => sumIdx shL fun p' => sumIdx shR fun q' =>
        ((L (g ω) p a * L (g ω) p' a') * (R (g ω) q b * R (g ω) q' b')) * (x p q * y p' q') := by
    funext ω
    rw [sumIdx_mul]
    refine sumIdx_congr fun p _ => ?_
    rw [sumIdx_mul]
    refine sumIdx_congr fun q _ => ?_
    rw [mul_sumIdx]
    refine sumIdx_congr fun p' _ => ?_
    rw [mul_sumIdx]
    exact sumIdx_congr fun q' _ => by ring
  rw [expand]
  have i4 : ∀ p q p', InR shL p → InR shR q → InR shL p' → _ := fun p q p' hp hq hp' =>
    integrable_sumIdx (P := P) shR (fun q' ω => ((L (g ω) p a * L (g ω) p' a') * (R (g ω) q b * R (g ω) q' b')) * (x p q * y p' q'))
      fun q' hq' => (term p q p' q' hp hq hp' hq').1
  have i3 : ∀ p q, InR shL p → InR shR q → _ := fun p q hp hq =>
    integrable_sumIdx (P := P) shL (fun p' ω => sumIdx shR fun q' =>
      ((L (g ω) p a * L (g ω) p' a') * (R (g ω) q b * R (g ω) q' b')) * (x p q * y p' q'))
      fun p' hp' => (i4 p q p' hp hq hp').1
  have i2 : ∀ p, InR shL p → _ := fun p hp =>
    integrable_sumIdx (P := P) shR (fun q ω => sumIdx shL fun p' => sumIdx shR fun q' =>
      ((L (g ω) p a * L (g ω) p' a') * (R (g ω) q b * R (g ω) q' b')) * (x p q * y p' q'))
      fun q hq => (i3 p q hp hq).1
  have i1 := integrable_sumIdx (P := P) shL (fun p ω => sumIdx shR fun q => sumIdx shL fun p' => sumIdx shR fun q' =>
      ((L (g ω) p a * L (g ω) p' a') * (R (g ω) q b * R (g ω) q' b')) * (x p q * y p' q')) fun p hp => (i2 p hp).1
  refine ⟨i1.1, i1.2.trans ?_⟩
  have key : ∀ p, InR shL p → ∀ q, InR shR q → ∫ ω, (sumIdx shL fun p' => sumIdx shR fun q' =>
      ((L (g ω) p a * L (g ω) p' a') * (R (g ω) q b * R (g ω) q' b')) * (x p q * y p' q')) ∂P
      = if a = a' ∧ b = b' then x p q * y p q else 0 := by
    intro p hp q hq
    refine (i3 p q hp hq).2.trans ?_
    have s1 : ∀ p', InR shL p' → ∫ ω, (sumIdx shR fun q' =>
        ((L (g ω) p a * L (g ω) p' a') * (R (g ω) q b * R (g ω) q' b')) * (x p q * y p' q')) ∂P
        = if p' = p then (if a = a' ∧ b = b' then x p q * y p' q else 0) else 0 := by
      intro p' hp'
      refine (i4 p q p' hp hq hp').2.trans ?_
      have s2 : ∀ q', InR shR q' → ∫ ω, ((L (g ω) p a * L (g ω) p' a') * (R (g ω) q b * R (g ω) q' b')) * (x p q * y p' q') ∂P
          = if q' = q then (if p' = p then (if a = a' ∧ b = b' then x p q * y p' q' else 0) else 0) else 0 := by
        intro q' hq'
        rw [(term p q p' q' hp hq hp' hq').2]
        by_cases h1 : p = p' <;> by_cases h2 : q = q' <;> by_cases h3 : a = a' <;> by_cases h4 : b = b' <;>
          simp [h1, h2, h3, h4, eq_comm] <;> simp_all [eq_comm]
      rw [sumIdx_congr s2, sumIdx_ite_eq hq]
    rw [sumIdx_congr s1, sumIdx_ite_eq hp]
  rw [sumIdx_congr fun p hp => (i2 p hp).2.trans (sumIdx_congr fun q hq => key p hp q hq)]
  by_cases h : a = a' ∧ b = b'
  · simp only [if_pos h]
  · simp only [if_neg h]
    exact sumIdx_eq_zero fun p _ => sumIdx_eq_zero fun q _ => rfl

end TTS
