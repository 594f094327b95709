import Verif.Proofs.RoundOpt
import Verif.Props.Norm
import Verif.Props.Lossless

/-!
# C19, C20: rounding
-/

namespace TTS.Props

open Finset TTS.Spec

theorem process_asked (a : RankArg) (shape : List ℕ) :
    processTTRank a shape true = if (askedRanks shape a).length + 1 = shape.length
      then .ok (trimRanks shape (askedRanks shape a)) else .error .valueError := by
  have : processTTRank a shape true = if (askedRanks shape a).length + 1 ≠ shape.length then .error .valueError
      else if true then .ok (trimRanks shape (askedRanks shape a)) else .ok (askedRanks shape a) := by
    cases a <;> rfl
  rw [this]
  by_cases h : (askedRanks shape a).length + 1 = shape.length
  · rw [if_neg (by simpa using h), if_pos h, if_pos rfl]
  · rw [if_pos h, if_neg h]

/-- What a train denotes splits at every bond into as many products as the rank. -/
theorem splits_tt {Z : TT ℝ} (hZ : Z.Valid) {mu : ℕ} (hmu : mu < Z.rank.length) :
    SplitsAt Z.shape 1 (fun p y => if y = 0 then Z.toNumpy.get p else 0) mu (Z.rank.getD mu 0) := by
  obtain ⟨x, n, hc, h0, h1⟩ := exists_cores hZ.2
  have hl := rank_length hZ
  have hsl : Z.shape.length = Z.cores.length := by simp [TT.shape]
  have hch := hc.chain (mu + 1) (by omega)
  have hx : x (mu + 1) = Z.rank.getD mu 0 := by
    have := (dim_of_shape3 (hc (mu + 1) (by omega))).1
    rw [← this]
    unfold TT.rank
    rw [getD_map_lt _ _ mu (by simpa [TT.rank] using hmu) (ND.zeros []), List.getD_eq_getElem?_getD,
      List.getD_eq_getElem?_getD, List.getElem?_tail]
  rw [h0, hx] at hch
  refine ⟨fun p a => ttVal (Z.cores.take (mu + 1)) p 0 a, fun q _ a => ttVal (Z.cores.drop (mu + 1)) q a 0, ?_⟩
  intro p q y hp _ hy
  have : y = 0 := by omega
  beta_reduce
  rw [if_pos this, TT.toNumpy_get hZ, ttEntry]
  conv_lhs => rw [← List.take_append_drop (mu + 1) Z.cores]
  rw [ttVal_append hch _ p q (by rw [hp, List.length_take]; omega) 0 0 one_pos]

theorem tt_reverse {O : TT ℝ} (h : O.Valid) : ∃ (C : ND ℝ) (Cs : List (ND ℝ)) (r n : ℕ),
    O.cores.reverse = C :: Cs ∧ C.shape = [r, n, 1] ∧ TTChain 1 Cs.reverse r ∧ O.cores.dropLast = Cs.reverse := by
  obtain ⟨hne, hch⟩ := h
  obtain ⟨u, n, h1, h2⟩ := chain_last hch hne
  refine ⟨O.cores.getLast hne, O.cores.dropLast.reverse, u, n, ?_, h2, by rwa [List.reverse_reverse], by simp⟩
  conv_lhs => rw [← List.dropLast_append_getLast hne]
  rw [List.reverse_append]; rfl

/-- The rounding sweep on a tensor train. -/
theorem roundLoop_tt {la : LinAlg} (hs : la.SVDOk) {O : TT ℝ} (hO : O.Valid) (hp : O.Pos) (eps : ℝ) (mr : List ℕ) :
    ∃ N disc, TT.roundLoop la eps mr none O.cores.reverse = .ok (N, disc) ∧
      (TT.mk N.reverse).Valid ∧ (TT.mk N.reverse).shape = O.shape ∧ (TT.mk N.reverse).Pos ∧
      RanksLe (TT.mk N.reverse).rank O.rank ∧
      (∀ k < O.rank.length, (TT.mk N.reverse).rank.getD k 0 ≤ max 1 (mr.getD k 0)) ∧
      (∀ C ∈ N.reverse.tail, C.RightOrthogonal) ∧ disc.length = O.rank.length ∧
      ((∀ C ∈ O.cores.dropLast, C.LeftOrthogonal) →
        distSq O.toNumpy (TT.mk N.reverse).toNumpy = (disc.map sumSq).sum ∧
        (0 ≤ eps → ∀ Z : TT ℝ, Z.Valid → Z.shape = O.shape → Z.rank = mr →
          (disc.map sumSq).sum ≤ O.rank.length * distSq O.toNumpy Z.toNumpy
            + (mr.sum : ℝ) * (eps ^ 2 * normSq O.toNumpy)) ∧
        (0 ≤ eps → mr.length = O.rank.length → ∀ G : ℕ → List ℕ → ℝ, (∀ mu < O.rank.length,
            ∃ f g : List ℕ → ℕ → ℝ, ∀ p q, p.length = mu + 1 → InR O.shape (p ++ q) →
              G mu (p ++ q) = ∑ a ∈ range (mr.getD mu 0), f p a * g q a) →
          (disc.map sumSq).sum ≤ ∑ mu ∈ range O.rank.length, sumIdx O.shape (fun i => (O.toNumpy.get i - G mu i) ^ 2)
            + (mr.sum : ℝ) * (eps ^ 2 * normSq O.toNumpy))) := by
  obtain ⟨C, Cs, r, n, hrev, hC, hCs, hdl⟩ := tt_reverse hO
  have hcores : O.cores = (C :: Cs).reverse := by rw [← hrev, List.reverse_reverse]
  have hOch : TTChain 1 O.cores 1 := hO.2
  have hshape : (coreShape (C :: Cs)).reverse = O.shape := by
    show _ = coreShape O.cores
    rw [hcores]; exact List.map_reverse.symm
  have hpos : ∀ D ∈ C :: Cs, 0 < D.dim 0 ∧ 0 < D.dim 1 := by
    intro D hD
    have hD' : D ∈ O.cores := by rw [hcores]; exact List.mem_reverse.2 hD
    refine ⟨?_, hp.1 _ (List.mem_map.2 ⟨D, hD', rfl⟩)⟩
    match hc : O.cores, hOch with
    | [], _ => rw [hc] at hD'; simp at hD'
    | A :: As, ⟨m, t, hA, _⟩ =>
      rw [hc] at hD'
      rcases List.mem_cons.1 hD' with rfl | hD'
      · rw [(dim_of_shape3 hA).1]; exact one_pos
      · exact hp.2 _ (List.mem_map.2 ⟨D, by rw [hc]; exact hD', rfl⟩)
  have hn : 0 < n := by have := (hpos C List.mem_cons_self).2; rwa [(dim_of_shape3 hC).2.1] at this
  obtain ⟨N, disc, n1, n2, n3, n4, n5, n6, n7⟩ := roundLoop_shape hs eps mr Cs C r n 1 hC hCs hn one_pos hpos
  have hOl : O.cores.length = Cs.length + 1 := by rw [hcores]; simp
  have hrl : O.rank.length = Cs.length := by simp [TT.rank, hOl]
  have hv : (TT.mk N.reverse).Valid := ⟨by
    intro h
    have := congrArg List.length (show N.reverse = [] from h)
    simp [n4] at this, n2⟩
  have hsh : (TT.mk N.reverse).shape = O.shape := by
    rw [← hshape, ← n3]; exact List.map_reverse
  have rk : ∀ (L : List (ND ℝ)) (k : ℕ), L.length = Cs.length + 1 → k < Cs.length →
      (TT.mk L.reverse).rank.getD k 0 = bondOf L (Cs.length - 1 - k) := by
    intro L k hL hk
    unfold TT.rank bondOf
    rw [getD_map_lt _ _ k (by simp [hL, hk]) (ND.zeros []), List.getD_eq_getElem?_getD, List.getElem?_tail,
      List.getElem?_reverse (by omega), ← List.getD_eq_getElem?_getD, hL]
    rw [show Cs.length + 1 - 1 - (k + 1) = Cs.length - 1 - k by omega]
  have hOmk : O = TT.mk (C :: Cs).reverse := by rw [← hcores]
  have b : ∀ k < O.rank.length, 1 ≤ (TT.mk N.reverse).rank.getD k 0 ∧
      (TT.mk N.reverse).rank.getD k 0 ≤ max 1 (mr.getD k 0) ∧
      (TT.mk N.reverse).rank.getD k 0 ≤ O.rank.getD k 0 := by
    intro k hk
    rw [hrl] at hk
    obtain ⟨m1, m2, m3, -⟩ := n7 (Cs.length - 1 - k) (by omega)
    rw [show Cs.length - 1 - (Cs.length - 1 - k) = k by omega] at m2
    have e1 := rk N k n4 hk
    have e2 := rk (C :: Cs) k rfl hk
    rw [← hOmk] at e2
    rw [e1, e2]
    exact ⟨m1, m2, m3⟩
  have hNrl : (TT.mk N.reverse).rank.length = Cs.length := by simp [TT.rank, n4]
  refine ⟨N, disc, by rw [hrev]; exact n1, hv, hsh, ⟨by rw [hsh]; exact hp.1, ?_⟩, ⟨by rw [hNrl, hrl], ?_⟩,
    fun k hk => (b k hk).2.1, ?_, by rw [n5, hrl], ?_⟩
  · intro w hw
    obtain ⟨k, hk, rfl⟩ := List.mem_iff_getElem.1 hw
    have := (b k (by rw [hrl, ← hNrl]; exact hk)).1
    rw [List.getD_eq_getElem _ _ hk] at this
    omega
  · intro k hk
    exact (b k (by rw [hrl, ← hNrl]; exact hk)).2.2
  · intro D hD
    refine n6 D ?_
    have : N.reverse.tail = N.dropLast.reverse := by rw [List.tail_reverse]
    rw [this] at hD
    exact List.mem_reverse.1 hD
  · intro ho
    rw [hdl] at ho
    have ho' : ∀ D ∈ Cs, D.LeftOrthogonal := fun D hD => ho D (List.mem_reverse.2 hD)
    have hOs := TT.toNumpy_shape hO
    have e0 : ∀ p, revVal (C :: Cs) p 0 = O.toNumpy.get p := by
      intro p; rw [TT.toNumpy_get hO, ttEntry, hcores]; rfl
    have eN : ∀ p, revVal N p 0 = (TT.mk N.reverse).toNumpy.get p := by
      intro p; rw [TT.toNumpy_get hv]; rfl
    have hsum : ∀ l : List ℕ, ∑ mu ∈ range l.length, (l.getD mu 0 : ℝ) = (l.sum : ℝ) := by
      intro l
      induction l with
      | nil => simp
      | cons a l ih =>
        rw [List.length_cons, sum_range_succ', List.sum_cons]
        simp only [List.getD_cons_succ, List.getD_cons_zero]
        rw [ih]; push_cast; ring
    refine ⟨?_, ?_, ?_⟩
    · rw [← roundLoop_error hs eps mr Cs C r n 1 hC hCs hn one_pos hpos ho' N disc n1, sum_range_one, hshape]
      unfold distSq
      rw [hOs]
      exact sumIdx_congr fun p _ => by rw [e0, eN]
    · intro he Z hZ hZs hZr
      have hml : mr.length = Cs.length := by
        have h1 := rank_length hZ
        rw [hZs, hZr] at h1
        have : O.shape.length = Cs.length + 1 := by simp [TT.shape, hOl]
        omega
      have := roundLoop_opt hs eps he mr Cs C r n 1 hC hCs hn one_pos hpos ho' N disc n1
        (fun p y => if y = 0 then Z.toNumpy.get p else 0) (by
          intro mu hmu
          have := splits_tt hZ (mu := mu) (by rw [hZr, hml]; exact hmu)
          rw [hZs, hZr] at this
          rw [hshape]; exact this)
      refine this.trans (le_of_eq ?_)
      unfold dist2
      rw [sum_range_one, sum_range_one, hshape, hrl]
      congr 2
      · unfold distSq
        rw [hOs]
        exact sumIdx_congr fun p _ => by rw [e0]; rfl
      · rw [← hml]
        exact hsum mr
      · congr 1
        unfold normSq
        rw [hOs]
        exact sumIdx_congr fun p _ => by rw [e0, sub_zero]
    · intro he hml G hG
      rw [hrl] at hml hG
      have := roundLoop_opt' hs eps he mr Cs C r n 1 hC hCs hn one_pos hpos ho' N disc n1
        (fun mu p _ => G mu p) (by
          intro mu hmu
          obtain ⟨f, g, hfg⟩ := hG mu hmu
          rw [hshape]
          exact ⟨f, fun q _ a => g q a, fun p q y hp' hpq _ => hfg p q hp' hpq⟩)
      refine this.trans (le_of_eq ?_)
      unfold dist2
      rw [hshape, hrl]
      congr 1
      · refine sum_congr rfl fun mu _ => ?_
        rw [sum_range_one]
        exact sumIdx_congr fun p _ => by rw [e0]
      · rw [sum_range_one, ← hml, hsum mr]
        congr 2
        unfold normSq
        rw [hOs]
        exact sumIdx_congr fun p _ => by rw [e0, sub_zero]

/-- The train that is rounded: the input itself if the caller says it is orthogonalised, else its orthogonalisation. -/
theorem round_input {la : LinAlg} (hq : la.QROk) {X : TT ℝ} (hX : X.Valid) (hp : X.Pos) (orth : Bool) :
    ∃ O, (if orth then Except.ok X else X.orthogonalize la) = .ok O ∧ O.Valid ∧ O.Pos ∧ O.shape = X.shape ∧
      O.toNumpy = X.toNumpy ∧ RanksLe O.rank X.rank ∧
      ((orth = true → ∀ C ∈ X.cores.dropLast, C.LeftOrthogonal) → ∀ C ∈ O.cores.dropLast, C.LeftOrthogonal) := by
  cases orth with
  | true => exact ⟨X, rfl, hX, hp, rfl, rfl, ⟨rfl, fun _ _ => le_rfl⟩, fun h => h rfl⟩
  | false =>
    obtain ⟨O, o1, o2, o3, o4, o5, o6, o7⟩ := C18 hq hX hp
    refine ⟨O, o1, o2, ⟨by rw [o3]; exact hp.1, ?_⟩, o3, o4, o6, fun _ => o5⟩
    -- positivity of the new ranks
    have hl : O.rank.length = X.rank.length := o6.1
    have hsl := rank_length hX
    have hpos : ∀ k ≤ X.rank.length, 0 < (1 :: O.rank).getD k 0 := by
      intro k
      induction k with
      | zero => intro _; exact one_pos
      | succ k ih =>
        intro hk
        rw [List.getD_cons_succ, o7 k hk]
        refine lt_min (Nat.mul_pos (ih (by omega)) ?_) ?_
        · rw [List.getD_eq_getElem _ _ (by omega)]; exact hp.1 _ (List.getElem_mem _)
        · rw [List.getD_eq_getElem _ _ (by omega)]; exact hp.2 _ (List.getElem_mem _)
    intro r hr
    obtain ⟨k, hk, rfl⟩ := List.mem_iff_getElem.1 hr
    have := hpos (k + 1) (by omega)
    rwa [List.getD_cons_succ, List.getD_eq_getElem _ _ hk] at this

/-- The ranks rounding works with: the trimmed requested ones, or the trimmed ranks of the train being rounded. -/
theorem round_ranks {X O : TT ℝ} (hO : O.Valid) (hs : O.shape = X.shape) (maxRank : Option RankArg)
    (hmr : ∀ a, maxRank = some a → (askedRanks X.shape a).length + 1 = X.shape.length) :
    ∃ rs, processTTRank (maxRank.getD (.seq O.rank)) O.shape true = .ok (trimRanks X.shape rs) ∧
      rs.length + 1 = X.shape.length ∧ (∀ a, maxRank = some a → rs = askedRanks X.shape a) ∧
      (maxRank = none → rs = O.rank) := by
  refine ⟨askedRanks X.shape (maxRank.getD (.seq O.rank)), ?_, ?_, ?_, ?_⟩
  · rw [process_asked, hs, if_pos]
    cases maxRank with
    | none => show O.rank.length + 1 = _; rw [← hs]; exact rank_length hO
    | some a => exact hmr a rfl
  · cases maxRank with
    | none => show O.rank.length + 1 = _; rw [← hs]; exact rank_length hO
    | some a => exact hmr a rfl
  · rintro a rfl; rfl
  · rintro rfl; rfl

/-- **C19.** For every tensor train with positive mode sizes and ranks, every `eps`, every acceptable `max_rank` and
both values of `orthogonalized`, `round` returns a tensor train of the same shape.  No rank is larger than in the input,
no rank exceeds `max(1, ·)` of the trimmed maximal rank, and every core but the first is right-orthogonal. -/
theorem C19 {la : LinAlg} (hq : la.QROk) (hs : la.SVDOk) {X : TT ℝ} (hX : X.Valid) (hp : X.Pos) (eps : Option ℝ)
    (maxRank : Option RankArg) (orth : Bool)
    (hmr : ∀ a, maxRank = some a → (askedRanks X.shape a).length + 1 = X.shape.length) :
    ∃ Y, X.round la eps maxRank orth = .ok Y ∧ Y.Valid ∧ Y.shape = X.shape ∧ Y.Pos ∧ RanksLe Y.rank X.rank ∧
      (∀ a, maxRank = some a → ∀ k < X.rank.length,
        Y.rank.getD k 0 ≤ max 1 ((trimRanks X.shape (askedRanks X.shape a)).getD k 0) ∧
        Y.rank.getD k 0 ≤ max 1 ((askedRanks X.shape a).getD k 0)) ∧
      ∀ C ∈ Y.cores.tail, C.RightOrthogonal := by
  obtain ⟨O, o1, o2, o3, o4, o5, o6, o7⟩ := round_input hq hX hp orth
  obtain ⟨rs, r1, r2, r3, -⟩ := round_ranks o2 o4 maxRank hmr
  obtain ⟨N, disc, n1, n2, n3, n4, n5, n6, n7, n8, n9⟩ :=
    roundLoop_tt hs o2 o3 (eps.getD 0) (trimRanks X.shape rs)
  refine ⟨⟨N.reverse⟩, ?_, n2, n3.trans o4, n4, ⟨n5.1.trans o6.1, fun i hi => (n5.2 i hi).trans
    (o6.2 i (by rw [← n5.1]; exact hi))⟩, ?_, n7⟩
  · unfold TT.round TT.roundTrace
    rw [o1]
    dsimp only
    rw [r1]
    dsimp only
    rw [n1]; rfl
  · intro a ha k hk
    obtain rfl := r3 a ha
    have hb := n6 k (by rw [o6.1]; exact hk)
    have := (C02 X.shape _ r2 k (by have := rank_length hX; omega)).2.1
    exact ⟨hb, hb.trans (max_le_max le_rfl this)⟩

/-- **C19, positive requests.** If every requested rank is positive, the ranks of the result are at most the trimmed
requested ones. -/
theorem C19_pos {la : LinAlg} (hq : la.QROk) (hs : la.SVDOk) {X : TT ℝ} (hX : X.Valid) (hp : X.Pos) (eps : Option ℝ)
    (a : RankArg) (orth : Bool) (hmr : (askedRanks X.shape a).length + 1 = X.shape.length)
    (hpos : ∀ r ∈ askedRanks X.shape a, 0 < r) :
    ∃ Y, X.round la eps (some a) orth = .ok Y ∧ RanksLe Y.rank (trimRanks X.shape (askedRanks X.shape a)) := by
  obtain ⟨Y, y1, y2, y3, -, y5, y6, -⟩ := C19 hq hs hX hp eps (some a) orth (fun b hb => by injection hb with h; rw [← h]; exact hmr)
  refine ⟨Y, y1, ?_, fun k hk => ?_⟩
  · rw [trimRanks_length _ _ hmr, y5.1]
    have := rank_length hX
    omega
  · rw [y5.1] at hk
    have h1 := (y6 a rfl k hk).1
    have h2 := C03_pos X.shape _ hmr hp.1 hpos k (by have := rank_length hX; omega)
    omega

/-- **C19, rejected requests.** A rank sequence of the wrong length is rejected with `ValueError`. -/
theorem C19_reject {la : LinAlg} (hq : la.QROk) {X : TT ℝ} (hX : X.Valid) (hp : X.Pos) (eps : Option ℝ)
    (rs : List ℕ) (orth : Bool) (h : rs.length + 1 ≠ X.shape.length) :
    X.round la eps (some (.seq rs)) orth = .error .valueError := by
  obtain ⟨O, o1, o2, o3, o4, -⟩ := round_input hq hX hp orth
  unfold TT.round TT.roundTrace
  rw [o1]
  dsimp only
  rw [Option.getD_some, process_asked, if_neg (by rw [o4]; exact h)]; rfl

example : laChoice.QROk ∧ laChoice.SVDOk ∧ x9.Valid ∧ x9.Pos ∧
    (askedRanks x9.shape (.int 1)).length + 1 = x9.shape.length :=
  ⟨laChoice_qr, laChoice_svd, x9_valid, x9_pos, rfl⟩

/-- **C20.** The squared error of `round` is the sum of the squares of the singular values it leaves out (at every
bond), whatever `eps` and `max_rank`; the input is to be left-orthogonal if `orthogonalized` is set. -/
theorem C20 {la : LinAlg} (hq : la.QROk) (hs : la.SVDOk) {X : TT ℝ} (hX : X.Valid) (hp : X.Pos) (eps : Option ℝ)
    (maxRank : Option RankArg) (orth : Bool)
    (hmr : ∀ a, maxRank = some a → (askedRanks X.shape a).length + 1 = X.shape.length)
    (ho : orth = true → ∀ C ∈ X.cores.dropLast, C.LeftOrthogonal) :
    ∃ Y disc, X.roundTrace la eps maxRank orth = .ok (Y, disc) ∧ X.round la eps maxRank orth = .ok Y ∧
      disc.length = X.rank.length ∧
      distSq X.toNumpy Y.toNumpy = (disc.map fun S => (S.map fun σ => σ ^ 2).sum).sum ∧
      ((∀ S ∈ disc, ∀ σ ∈ S, σ = 0) → Y.toNumpy = X.toNumpy) := by
  obtain ⟨O, o1, o2, o3, o4, o5, o6, o7⟩ := round_input hq hX hp orth
  obtain ⟨rs, r1, r2, r3, -⟩ := round_ranks o2 o4 maxRank hmr
  obtain ⟨N, disc, n1, n2, n3, n4, n5, n6, n7, n8, n9⟩ :=
    roundLoop_tt hs o2 o3 (eps.getD 0) (trimRanks X.shape rs)
  have htr : X.roundTrace la eps maxRank orth = .ok (⟨N.reverse⟩, disc) := by
    unfold TT.roundTrace
    rw [o1]
    dsimp only
    rw [r1]
    dsimp only
    rw [n1]
  have herr := (n9 (o7 ho)).1
  rw [o5] at herr
  refine ⟨⟨N.reverse⟩, disc, htr, by unfold TT.round; rw [htr]; rfl, by rw [n8, o6.1], herr, ?_⟩
  intro hz
  have h0 : distSq X.toNumpy (TT.mk N.reverse).toNumpy = 0 := by
    rw [herr]
    apply List.sum_eq_zero
    intro x hx
    obtain ⟨S, hS, rfl⟩ := List.mem_map.1 hx
    apply List.sum_eq_zero
    intro x hx
    obtain ⟨σ, hσ, rfl⟩ := List.mem_map.1 hx
    rw [hz S hS σ hσ]; simp
  unfold distSq at h0
  rw [sumIdx_eq_sum, sum_eq_zero_iff_of_nonneg (fun _ _ => sq_nonneg _)] at h0
  refine ND.ext' (by rw [TT.toNumpy_shape n2, TT.toNumpy_shape hX, n3, o4]) fun i hi => ?_
  have := h0 i (mem_idxSet.2 (by rwa [TT.toNumpy_shape n2, n3, o4, ← TT.toNumpy_shape hX] at hi))
  have := pow_eq_zero_iff (two_ne_zero) |>.1 this
  linarith

/-- **C20, quasi-optimality.** For every tensor `Z` that is a tensor train with ranks at most the requested ones, the
squared error of `round` is at most `(d-1)` times the squared distance to `Z`, plus a term due to `eps`:
the squared norm times `eps²` and the sum of the trimmed requested ranks. -/
theorem C20_quasi_optimal {la : LinAlg} (hq : la.QROk) (hs : la.SVDOk) {X : TT ℝ} (hX : X.Valid) (hp : X.Pos)
    (eps : Option ℝ) (he : 0 ≤ eps.getD 0) (a : RankArg) (orth : Bool)
    (hmr : (askedRanks X.shape a).length + 1 = X.shape.length)
    (ho : orth = true → ∀ C ∈ X.cores.dropLast, C.LeftOrthogonal) :
    ∃ Y, X.round la eps (some a) orth = .ok Y ∧
      ∀ Z : TT ℝ, Z.Valid → Z.shape = X.shape → RanksLe Z.rank (askedRanks X.shape a) →
        distSq X.toNumpy Y.toNumpy ≤ (X.shape.length - 1 : ℕ) * distSq X.toNumpy Z.toNumpy
          + ((trimRanks X.shape (askedRanks X.shape a)).sum : ℝ) * (eps.getD 0 ^ 2 * normSq X.toNumpy) := by
  obtain ⟨O, o1, o2, o3, o4, o5, o6, o7⟩ := round_input hq hX hp orth
  obtain ⟨rs, r1, r2, r3, -⟩ := round_ranks o2 o4 (some a) (fun b hb => by injection hb with h; rw [← h]; exact hmr)
  obtain rfl := r3 a rfl
  obtain ⟨N, disc, n1, n2, n3, n4, n5, n6, n7, n8, n9⟩ :=
    roundLoop_tt hs o2 o3 (eps.getD 0) (trimRanks X.shape (askedRanks X.shape a))
  refine ⟨⟨N.reverse⟩, ?_, ?_⟩
  · unfold TT.round TT.roundTrace
    rw [o1]
    dsimp only
    rw [r1]
    dsimp only
    rw [n1]; rfl
  · intro Z hZ hZs hZr
    obtain ⟨Z', z1, z2, z3, z4⟩ := C04 Z hZ _ hZr
    obtain ⟨e1, e2, -⟩ := n9 (o7 ho)
    have := e2 he Z' z1 (by rw [z2, hZs, o4]) (by rw [z3, hZs])
    rw [← e1, o5, z4, o6.1] at this
    have hl : X.rank.length = X.shape.length - 1 := by have := rank_length hX; omega
    rw [hl] at this
    exact this

/-- **C20, tolerance only.** Without a maximal rank, the relative squared error is at most `eps²` times the sum of the
(trimmed) ranks of the train that is rounded, hence of those of the input. -/
theorem C20_tolerance {la : LinAlg} (hq : la.QROk) (hs : la.SVDOk) {X : TT ℝ} (hX : X.Valid) (hp : X.Pos)
    (eps : Option ℝ) (he : 0 ≤ eps.getD 0) (orth : Bool)
    (ho : orth = true → ∀ C ∈ X.cores.dropLast, C.LeftOrthogonal) :
    ∃ Y, X.round la eps none orth = .ok Y ∧
      distSq X.toNumpy Y.toNumpy ≤ (X.rank.sum : ℝ) * (eps.getD 0 ^ 2 * normSq X.toNumpy) := by
  obtain ⟨O, o1, o2, o3, o4, o5, o6, o7⟩ := round_input hq hX hp orth
  obtain ⟨rs, r1, r2, -, r3⟩ := round_ranks o2 o4 none (fun b hb => by cases hb)
  obtain rfl := r3 rfl
  obtain ⟨N, disc, n1, n2, n3, n4, n5, n6, n7, n8, n9⟩ :=
    roundLoop_tt hs o2 o3 (eps.getD 0) (trimRanks X.shape O.rank)
  refine ⟨⟨N.reverse⟩, ?_, ?_⟩
  · unfold TT.round TT.roundTrace
    rw [o1]
    dsimp only
    rw [r1]
    dsimp only
    rw [n1]; rfl
  · obtain ⟨Z', z1, z2, z3, z4⟩ := C04_self O o2
    obtain ⟨e1, e2, -⟩ := n9 (o7 ho)
    have := e2 he Z' z1 z2 (by rw [z3, o4])
    have h0 : distSq O.toNumpy O.toNumpy = 0 := by
      unfold distSq; exact sumIdx_eq_zero fun _ _ => by simp
    rw [← e1, z4, h0, mul_zero, zero_add, o5] at this
    refine this.trans (mul_le_mul_of_nonneg_right ?_ (mul_nonneg (sq_nonneg _) (normSq_nonneg _)))
    have hsum : (trimRanks X.shape O.rank).sum ≤ X.rank.sum := by
      have hl : (trimRanks X.shape O.rank).length = X.rank.length := by rw [trimRanks_length _ _ r2, o6.1]
      have hle : ∀ i < X.rank.length, (trimRanks X.shape O.rank).getD i 0 ≤ X.rank.getD i 0 := by
        intro i hi
        have hi' : i < O.rank.length := by rw [o6.1]; exact hi
        exact (C02 X.shape O.rank r2 i hi').2.1.trans (o6.2 i hi')
      have gen : ∀ l m : List ℕ, l.length = m.length → (∀ i < m.length, l.getD i 0 ≤ m.getD i 0) → l.sum ≤ m.sum := by
        intro l
        induction l with
        | nil => intro m _ _; simp
        | cons a l ih =>
          intro m hm hle
          match m, hm with
          | b :: m, hm =>
            rw [List.sum_cons, List.sum_cons]
            exact Nat.add_le_add (hle 0 (by simp)) (ih m (by simpa using hm) fun i hi => hle (i + 1) (by simpa using hi))
      exact gen _ _ hl hle
    exact_mod_cast hsum

/-- **C20, exactness.** Without `eps`, rounding to ranks with which the tensor can be represented is exact. -/
theorem C20_exact {la : LinAlg} (hq : la.QROk) (hs : la.SVDOk) {X : TT ℝ} (hX : X.Valid) (hp : X.Pos)
    (a : RankArg) (orth : Bool) (hmr : (askedRanks X.shape a).length + 1 = X.shape.length)
    (ho : orth = true → ∀ C ∈ X.cores.dropLast, C.LeftOrthogonal)
    {Z : TT ℝ} (hZ : Z.Valid) (hZs : Z.shape = X.shape) (hZr : RanksLe Z.rank (askedRanks X.shape a))
    (hZX : Z.toNumpy = X.toNumpy) :
    ∃ Y, X.round la none (some a) orth = .ok Y ∧ Y.toNumpy = X.toNumpy := by
  obtain ⟨Y, y1, y2⟩ := C20_quasi_optimal hq hs hX hp none le_rfl a orth hmr ho
  obtain ⟨Y', z1, z2, z3, -⟩ := C19 hq hs hX hp none (some a) orth (fun b hb => by injection hb with h; rw [← h]; exact hmr)
  have : Y' = Y := by rw [y1] at z1; injection z1 with h; exact h.symm
  subst this
  refine ⟨Y', y1, ?_⟩
  have h := y2 Z hZ hZs hZr
  have h0 : distSq X.toNumpy X.toNumpy = 0 := by
    unfold distSq; exact sumIdx_eq_zero fun _ _ => by simp
  rw [hZX, h0] at h
  have h1 : distSq X.toNumpy Y'.toNumpy = 0 := le_antisymm (by simpa using h) (distSq_nonneg _ _)
  unfold distSq at h1
  rw [sumIdx_eq_sum, sum_eq_zero_iff_of_nonneg (fun _ _ => sq_nonneg _)] at h1
  refine ND.ext' (by rw [TT.toNumpy_shape z2, TT.toNumpy_shape hX, z3]) fun i hi => ?_
  have := h1 i (mem_idxSet.2 (by rwa [TT.toNumpy_shape z2, z3, ← TT.toNumpy_shape hX] at hi))
  have := pow_eq_zero_iff (two_ne_zero) |>.1 this
  linarith

/-- a rank-one train of the shape of `x9` -/
def z9 : TT ℝ := ⟨[ND.ofFn [1, 2, 1] fun i => i.getD 1 0 + 1, ND.ofFn [1, 3, 1] fun _ => 2, ND.ofFn [1, 2, 1] fun _ => 3]⟩
example : z9.Valid ∧ z9.shape = x9.shape ∧ RanksLe z9.rank (askedRanks x9.shape (.int 1)) :=
  ⟨⟨by simp [z9], 2, 1, rfl, 3, 1, rfl, 2, 1, rfl, rfl⟩, rfl, rfl, fun i hi => le_of_eq rfl⟩

end TTS.Props
