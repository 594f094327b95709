import Verif.Proofs.Block
import Verif.Proofs.SketchT

/-! Writing blocks into a container: after all blocks of a grid, every entry is written. -/

namespace TTS

variable {K : Type*}

/-- the loops of `_assemble_blocked_stream_sketches` -/
theorem foldlM_set {α β ε : Type*} (z : α) (g : α → β × ℕ → Except ε α) (h : ℕ → α) :
    ∀ (bs : List β) (k : ℕ) (cur : List α), k + bs.length ≤ cur.length →
    (∀ i (hi : i < bs.length), g (cur.getD (k + i) z) (bs[i], k + i) = .ok (h (k + i))) →
    ∃ res, (bs.zipIdx k).foldlM (fun (cur : List α) b =>
        (g (cur.getD b.2 z) b).andThen fun A => .ok (cur.set b.2 A)) cur = .ok res ∧
      res.length = cur.length ∧ ∀ i, res.getD i z = if k ≤ i ∧ i < k + bs.length then h i else cur.getD i z
  | [], k, cur, _, _ => ⟨cur, rfl, rfl, fun i => by rw [if_neg (by simp)]⟩
  | b :: bs, k, cur, hlen, hg => by
    have h0 := hg 0 (by simp)
    simp only [Nat.add_zero, List.getElem_cons_zero] at h0
    simp only [List.length_cons] at hlen
    have hget : ∀ i, k ≠ i → (cur.set k (h k)).getD i z = cur.getD i z := by
      intro i hi
      simp only [List.getD_eq_getElem?_getD, List.getElem?_set_ne hi]
    obtain ⟨res, h1, h2, h3⟩ := foldlM_set z g h bs (k + 1) (cur.set k (h k)) (by simp; omega)
      (fun i hi => by
        have := hg (i + 1) (by simp; omega)
        rw [hget _ (by omega)]
        rw [show k + (i + 1) = k + 1 + i by omega] at this
        simpa using this)
    refine ⟨res, ?_, by simpa using h2, fun i => ?_⟩
    · rw [List.zipIdx_cons, List.foldlM_cons]
      show (Except.andThen (g (cur.getD k z) (b, k)) _ >>= _) = _
      rw [h0]
      exact h1
    · rw [h3, List.length_cons]
      by_cases hi : k = i
      · subst hi
        rw [if_neg (by omega), if_pos (by omega)]
        simp only [List.getD_eq_getElem?_getD]
        rw [List.getElem?_set_self (by omega)]; rfl
      · rw [hget _ hi]
        by_cases h' : k + 1 ≤ i ∧ i < k + 1 + bs.length
        · rw [if_pos h', if_pos (by omega)]
        · rw [if_neg h', if_neg (by omega)]

section
variable [CommRing K]

/-- Entries of `C` already written: those covered by one of the `blocks`. -/
structure Written (C s : Container K) (sh lr rr : List ℕ) (lcuts rcuts : List (List ℕ))
    (done : List (ℕ × ℕ)) : Prop where
  has : s.HasShape sh lr rr
  psi : ∀ b ∈ done, ∀ mu < sh.length, ∀ x j y,
    (0 :: lcuts.getD b.1 []).getD mu 0 ≤ x → x < (1 :: lcuts.getD (b.1 + 1) []).getD mu 0 →
    (rcuts.getD b.2 [] ++ [0]).getD mu 0 ≤ y → y < (rcuts.getD (b.2 + 1) [] ++ [1]).getD mu 0 →
    j < sh.getD mu 0 →
    (s.psi.getD mu (ND.zeros [])).get [x, j, y] = (C.psi.getD mu (ND.zeros [])).get [x, j, y]
  omega : ∀ b ∈ done, ∀ mu < sh.length - 1, ∀ x y,
    (lcuts.getD b.1 []).getD mu 0 ≤ x → x < (lcuts.getD (b.1 + 1) []).getD mu 0 →
    (rcuts.getD b.2 []).getD mu 0 ≤ y → y < (rcuts.getD (b.2 + 1) []).getD mu 0 →
    (s.omega.getD mu (ND.zeros [])).get [x, y] = (C.omega.getD mu (ND.zeros [])).get [x, y]

theorem setBlock3_ok {A B : ND K} {p q t a1 a2 b1 b2 : ℕ} (hA : A.shape = [p, q, t])
    (hB : B.shape = [a2 - a1, q, b2 - b1]) (ha : a2 ≤ p) (hb : b2 ≤ t) :
    A.setBlock3 a1 a2 b1 b2 B = .ok (ND.ofFn [p, q, t] fun i =>
      if a1 ≤ i.getD 0 0 ∧ i.getD 0 0 < a2 ∧ b1 ≤ i.getD 2 0 ∧ i.getD 2 0 < b2 then
        B.get [i.getD 0 0 - a1, i.getD 1 0, i.getD 2 0 - b1]
      else A.get i) := by
  unfold ND.setBlock3 ND.dim
  rw [hA, if_pos]
  rw [hB]
  simp [Nat.min_eq_left ha, Nat.min_eq_left hb]

theorem setBlock2_ok {A B : ND K} {p t a1 a2 b1 b2 : ℕ} (hA : A.shape = [p, t])
    (hB : B.shape = [a2 - a1, b2 - b1]) (ha : a2 ≤ p) (hb : b2 ≤ t) :
    A.setBlock2 a1 a2 b1 b2 B = .ok (ND.ofFn [p, t] fun i =>
      if a1 ≤ i.getD 0 0 ∧ i.getD 0 0 < a2 ∧ b1 ≤ i.getD 1 0 ∧ i.getD 1 0 < b2 then
        B.get [i.getD 0 0 - a1, i.getD 1 0 - b1]
      else A.get i) := by
  unfold ND.setBlock2 ND.dim
  rw [hA, if_pos]
  rw [hB]
  simp [Nat.min_eq_left ha, Nat.min_eq_left hb]

theorem aug_le_left {l2 lr : List ℕ} {n : ℕ} (h : ∀ k < n - 1, l2.getD k 0 ≤ lr.getD k 0) {mu : ℕ}
    (hmu : mu < n) : (1 :: l2).getD mu 0 ≤ (1 :: lr).getD mu 0 := by
  cases mu with
  | zero => exact le_refl _
  | succ k => exact h k (by omega)

theorem aug_le_right {r2 rr : List ℕ} {n : ℕ} (h2 : r2.length = n - 1) (hr : rr.length = n - 1)
    (h : ∀ k < n - 1, r2.getD k 0 ≤ rr.getD k 0) {mu : ℕ} (hmu : mu < n) :
    (r2 ++ [1]).getD mu 0 ≤ (rr ++ [1]).getD mu 0 := by
  by_cases hm : mu < n - 1
  · rw [List.getD_append _ _ _ _ (by omega), List.getD_append _ _ _ _ (by omega)]; exact h mu hm
  · rw [List.getD_append_right _ _ _ _ (by omega), List.getD_append_right _ _ _ _ (by omega), h2, hr]

/-- writing one block -/
theorem write_step {C s B : Container K} {sh lr rr : List ℕ} {lcuts rcuts : List (List ℕ)}
    {done : List (ℕ × ℕ)} {ij : ℕ × ℕ} (hs : Written C s sh lr rr lcuts rcuts done)
    (hB : IsBlock B C sh (lcuts.getD ij.1 []) (lcuts.getD (ij.1 + 1) []) (rcuts.getD ij.2 [])
      (rcuts.getD (ij.2 + 1) []))
    (hrr : rr.length = sh.length - 1)
    (hr1 : (rcuts.getD ij.2 []).length = sh.length - 1)
    (hr2 : (rcuts.getD (ij.2 + 1) []).length = sh.length - 1)
    (hle1 : ∀ k < sh.length - 1, (lcuts.getD (ij.1 + 1) []).getD k 0 ≤ lr.getD k 0)
    (hle2 : ∀ k < sh.length - 1, (rcuts.getD (ij.2 + 1) []).getD k 0 ≤ rr.getD k 0) :
    ∃ s', writeBlock lcuts rcuts s (ij, B) = .ok s' ∧ Written C s' sh lr rr lcuts rcuts (ij :: done) := by
  set l1 := lcuts.getD ij.1 [] with e1
  set l2 := lcuts.getD (ij.1 + 1) [] with e2
  set r1 := rcuts.getD ij.2 [] with e3
  set r2 := rcuts.getD (ij.2 + 1) [] with e4
  obtain ⟨psi, p1, p2, p3⟩ := foldlM_set (ND.zeros []) (fun (A : ND K) (Pm : ND K × ℕ) =>
      A.setBlock3 ((0 :: l1).getD Pm.2 0) ((1 :: l2).getD Pm.2 0)
        ((r1 ++ [0]).getD Pm.2 0) ((r2 ++ [1]).getD Pm.2 0) Pm.1)
    (fun mu => ND.ofFn [(1 :: lr).getD mu 0, sh.getD mu 0, (rr ++ [1]).getD mu 0] fun i =>
      if (0 :: l1).getD mu 0 ≤ i.getD 0 0 ∧ i.getD 0 0 < (1 :: l2).getD mu 0 ∧
          (r1 ++ [0]).getD mu 0 ≤ i.getD 2 0 ∧ i.getD 2 0 < (r2 ++ [1]).getD mu 0 then
        (B.psi.getD mu (ND.zeros [])).get [i.getD 0 0 - (0 :: l1).getD mu 0, i.getD 1 0,
          i.getD 2 0 - (r1 ++ [0]).getD mu 0]
      else (s.psi.getD mu (ND.zeros [])).get i) B.psi 0 s.psi (by rw [hB.psiLen, hs.has.psiLen]; omega)
    (fun i hi => by
      have hi' : i < sh.length := by rw [← hB.psiLen]; exact hi
      simp only [Nat.zero_add]
      have := hB.psiShape i hi'
      rw [getD_eq hi] at this ⊢
      exact setBlock3_ok (hs.has.psi i hi') this (aug_le_left hle1 hi') (aug_le_right hr2 hrr hle2 hi'))
  obtain ⟨om, o1, o2, o3⟩ := foldlM_set (ND.zeros []) (fun (A : ND K) (Om : ND K × ℕ) =>
      A.setBlock2 ((0 :: l1).getD (Om.2 + 1) 0) ((1 :: l2).getD (Om.2 + 1) 0)
        ((r1 ++ [0]).getD Om.2 0) ((r2 ++ [1]).getD Om.2 0) Om.1)
    (fun mu => ND.ofFn [lr.getD mu 0, rr.getD mu 0] fun i =>
      if l1.getD mu 0 ≤ i.getD 0 0 ∧ i.getD 0 0 < l2.getD mu 0 ∧
          r1.getD mu 0 ≤ i.getD 1 0 ∧ i.getD 1 0 < r2.getD mu 0 then
        (B.omega.getD mu (ND.zeros [])).get [i.getD 0 0 - l1.getD mu 0, i.getD 1 0 - r1.getD mu 0]
      else (s.omega.getD mu (ND.zeros [])).get i) B.omega 0 s.omega
    (by rw [hB.omegaLen, hs.has.omegaLen]; omega)
    (fun i hi => by
      have hi' : i < sh.length - 1 := by rw [← hB.omegaLen]; exact hi
      simp only [Nat.zero_add, List.getD_cons_succ]
      have := hB.omegaShape i hi'
      rw [getD_eq hi] at this ⊢
      rw [List.getD_append _ _ _ _ (by omega), List.getD_append _ _ _ _ (by omega)]
      exact setBlock2_ok (hs.has.omega i hi') this (hle1 i hi') (hle2 i hi'))
  have hpl : 0 + B.psi.length = sh.length := by rw [hB.psiLen]; omega
  have hol : 0 + B.omega.length = sh.length - 1 := by rw [hB.omegaLen]; omega
  simp only [hpl, Nat.zero_le, true_and] at p3
  simp only [hol, Nat.zero_le, true_and] at o3
  refine ⟨{ s with psi := psi, omega := om }, ?_, ⟨⟨hs.has.shape, hs.has.left, hs.has.right, ?_, ?_, ?_, ?_⟩, ?_, ?_⟩⟩
  · unfold writeBlock
    simp only []
    rw [← e1, ← e2, ← e3, ← e4, p1]
    simp only [Except.andThen]
    have o1' := o1
    simp only [Except.andThen] at o1'
    rw [o1']
  · exact p2.trans hs.has.psiLen
  · exact o2.trans hs.has.omegaLen
  · intro mu hmu
    show (psi.getD mu _).shape = _
    rw [p3, if_pos hmu, ND.ofFn_shape]
  · intro mu hmu
    show (om.getD mu _).shape = _
    rw [o3, if_pos hmu, ND.ofFn_shape]
  · intro b hb mu hmu x j y hx hx' hy hy' hj
    show (psi.getD mu _).get _ = _
    rw [p3, if_pos hmu]
    by_cases hin : InR [(1 :: lr).getD mu 0, sh.getD mu 0, (rr ++ [1]).getD mu 0] [x, j, y]
    · rw [ND.ofFn_get hin]
      show (if (0 :: l1).getD mu 0 ≤ x ∧ x < (1 :: l2).getD mu 0 ∧
          (r1 ++ [0]).getD mu 0 ≤ y ∧ y < (r2 ++ [1]).getD mu 0 then
        (B.psi.getD mu (ND.zeros [])).get [x - (0 :: l1).getD mu 0, j, y - (r1 ++ [0]).getD mu 0]
      else (s.psi.getD mu (ND.zeros [])).get [x, j, y]) = _
      split_ifs with hc
      · rw [hB.psi mu hmu _ j _ (by omega) hj (by omega), Nat.add_sub_cancel' hc.1, Nat.add_sub_cancel' hc.2.2.1]
      · rcases List.mem_cons.1 hb with rfl | hb
        · exact absurd ⟨hx, hx', hy, hy'⟩ hc
        · exact hs.psi b hb mu hmu x j y hx hx' hy hy' hj
    · rcases List.mem_cons.1 hb with rfl | hb
      · exfalso
        apply hin
        have h1 := aug_le_left hle1 hmu
        have h2 := aug_le_right hr2 hrr hle2 hmu
        rw [← e2] at hx'
        rw [← e4] at hy'
        exact ⟨by omega, hj, by omega, trivial⟩
      · rw [ND.supp _ _ (by rw [ND.ofFn_shape]; exact hin), ← hs.psi b hb mu hmu x j y hx hx' hy hy' hj,
          ND.supp _ _ (by rw [hs.has.psi mu hmu]; exact hin)]
  · intro b hb mu hmu x y hx hx' hy hy'
    show (om.getD mu _).get _ = _
    rw [o3, if_pos hmu]
    by_cases hin : InR [lr.getD mu 0, rr.getD mu 0] [x, y]
    · rw [ND.ofFn_get hin]
      show (if l1.getD mu 0 ≤ x ∧ x < l2.getD mu 0 ∧ r1.getD mu 0 ≤ y ∧ y < r2.getD mu 0 then
        (B.omega.getD mu (ND.zeros [])).get [x - l1.getD mu 0, y - r1.getD mu 0]
      else (s.omega.getD mu (ND.zeros [])).get [x, y]) = _
      split_ifs with hc
      · rw [hB.omega mu hmu _ _ (by omega) (by omega), Nat.add_sub_cancel' hc.1, Nat.add_sub_cancel' hc.2.2.1]
      · rcases List.mem_cons.1 hb with rfl | hb
        · exact absurd ⟨hx, hx', hy, hy'⟩ hc
        · exact hs.omega b hb mu hmu x y hx hx' hy hy'
    · rcases List.mem_cons.1 hb with rfl | hb
      · exfalso
        apply hin
        have h1 := hle1 mu hmu
        have h2 := hle2 mu hmu
        rw [← e2] at hx'
        rw [← e4] at hy'
        exact ⟨by omega, by omega, trivial⟩
      · rw [ND.supp _ _ (by rw [ND.ofFn_shape]; exact hin), ← hs.omega b hb mu hmu x y hx hx' hy hy',
          ND.supp _ _ (by rw [hs.has.omega mu hmu]; exact hin)]

theorem CutChain.mono' {cuts : List (List ℕ)} {rk : List ℕ} {n : ℕ} (h : CutChain cuts rk n) {k : ℕ} (hk : k < n) :
    ∀ {j i : ℕ}, i ≤ j → j < cuts.length → (cuts.getD i []).getD k 0 ≤ (cuts.getD j []).getD k 0
  | 0, i, hij, _ => by rw [show i = 0 by omega]
  | j + 1, i, hij, hj => by
    rcases Nat.lt_or_ge i (j + 1) with h1 | h1
    · exact (h.mono' hk (by omega) (by omega)).trans (h.mono j hj k hk)
    · rw [show i = j + 1 by omega]

theorem CutChain.le_last {cuts : List (List ℕ)} {rk : List ℕ} {n : ℕ} (h : CutChain cuts rk n) {k : ℕ} (hk : k < n)
    {i : ℕ} (hi : i < cuts.length) : (cuts.getD i []).getD k 0 ≤ rk.getD k 0 := by
  have h2 := h.two
  rw [← h.last]
  exact h.mono' hk (by omega) (by omega)

/-- every column lies in one of the slices -/
theorem CutChain.cover {cuts : List (List ℕ)} {rk : List ℕ} {n : ℕ} (h : CutChain cuts rk n) {k : ℕ} (hk : k < n)
    {x : ℕ} (hx : x < rk.getD k 0) :
    ∃ i, i + 1 < cuts.length ∧ (cuts.getD i []).getD k 0 ≤ x ∧ x < (cuts.getD (i + 1) []).getD k 0 := by
  have h2 := h.two
  have key : ∀ m, m < cuts.length → x < (cuts.getD m []).getD k 0 →
      ∃ i, i + 1 < cuts.length ∧ (cuts.getD i []).getD k 0 ≤ x ∧ x < (cuts.getD (i + 1) []).getD k 0 := by
    intro m
    induction m with
    | zero =>
      intro _ hx
      rw [h.first] at hx
      exfalso
      rw [Props.replicate_getD_zero] at hx
      omega
    | succ m ih =>
      intro hm hx
      by_cases hc : x < (cuts.getD m []).getD k 0
      · exact ih (by omega) hc
      · exact ⟨m, hm, by omega, hx⟩
  exact key (cuts.length - 1) (by omega) (by rw [h.last]; exact hx)

/-- all blocks of the grid, in any order, give the whole container -/
theorem write_all {C : Container K} {sh lr rr : List ℕ} {lcuts rcuts : List (List ℕ)}
    (hd : 2 ≤ sh.length) (hC : C.HasShape sh lr rr) (hl : CutChain lcuts lr (sh.length - 1))
    (hr : CutChain rcuts rr (sh.length - 1)) (blocks : Blocks K)
    (hb : ∀ b ∈ blocks, b.1.1 + 1 < lcuts.length ∧ b.1.2 + 1 < rcuts.length ∧
      IsBlock b.2 C sh (lcuts.getD b.1.1 []) (lcuts.getD (b.1.1 + 1) []) (rcuts.getD b.1.2 [])
        (rcuts.getD (b.1.2 + 1) []))
    (hall : ∀ i j, i + 1 < lcuts.length → j + 1 < rcuts.length → ∃ b ∈ blocks, b.1 = (i, j)) :
    assembleBlocked lcuts rcuts sh blocks = .ok C := by
  have hl2 := hl.two
  have hr2 := hr.two
  have llen : lr.length = sh.length - 1 := by rw [← hl.last]; exact hl.len _ (by omega)
  have rlen : rr.length = sh.length - 1 := by rw [← hr.last]; exact hr.len _ (by omega)
  have hlast : ∀ {cuts : List (List ℕ)}, 2 ≤ cuts.length → cuts.getLastD [] = cuts.getD (cuts.length - 1) [] := by
    intro cuts h
    rw [List.getLastD_eq_getLast?, List.getLast?_eq_getElem?, List.getD_eq_getElem?_getD]
  have key : ∀ (bs : Blocks K) (s : Container K) (done : List (ℕ × ℕ)), (∀ b ∈ bs, b ∈ blocks) →
      Written C s sh lr rr lcuts rcuts done → ∃ s', bs.foldlM (writeBlock lcuts rcuts) s = .ok s' ∧
        Written C s' sh lr rr lcuts rcuts ((bs.map Prod.fst).reverse ++ done) := by
    intro bs
    induction bs with
    | nil => exact fun s done _ h => ⟨s, rfl, h⟩
    | cons b bs ih =>
      intro s done hmem h
      obtain ⟨q1, q2, q3⟩ := hb b (hmem b (by simp))
      obtain ⟨s1, h1, h2⟩ := write_step (ij := b.1) h q3 rlen (hr.len _ (by omega)) (hr.len _ q2)
        (fun k hk => hl.le_last hk q1) (fun k hk => hr.le_last hk q2)
      obtain ⟨s2, h3, h4⟩ := ih s1 _ (fun b hb => hmem b (by simp [hb])) h2
      refine ⟨s2, ?_, by simpa using h4⟩
      rw [List.foldlM_cons]
      show (writeBlock lcuts rcuts s (b.1, b.2) >>= _) = _
      rw [h1]
      exact h3
  have h0 : Written C (Container.zero sh lr rr) sh lr rr lcuts rcuts [] := by
    refine ⟨?_, by simp, by simp⟩
    refine ⟨rfl, rfl, rfl, ?_, ?_, fun mu hmu => ?_, fun mu hmu => ?_⟩
    · simp [Container.zero]; omega
    · simp [Container.zero]; omega
    · unfold Container.zero
      simp only []
      rw [getD_eq (by simp; omega), List.getElem_zipWith, List.getElem_zip, getD_eq (by simp; omega),
        getD_eq hmu, getD_eq (by simp; omega)]
      rfl
    · unfold Container.zero
      simp only []
      rw [getD_eq (by simp; omega), List.getElem_zipWith, getD_eq (by omega), getD_eq (by omega)]
      rfl
  unfold assembleBlocked
  rw [hlast hl2, hlast hr2, hl.last, hr.last]
  obtain ⟨s, h1, h2⟩ := key blocks _ [] (fun b hb => hb) h0
  rw [h1]
  congr 1
  have hmem : ∀ i j, i + 1 < lcuts.length → j + 1 < rcuts.length →
      (i, j) ∈ (blocks.map Prod.fst).reverse ++ [] := by
    intro i j hi hj
    obtain ⟨b, hb, e⟩ := hall i j hi hj
    simp only [List.append_nil, List.mem_reverse, List.mem_map]
    exact ⟨b, hb, e⟩
  have covL : ∀ mu < sh.length, ∀ x < (1 :: lr).getD mu 0, ∃ i, i + 1 < lcuts.length ∧
      (0 :: lcuts.getD i []).getD mu 0 ≤ x ∧ x < (1 :: lcuts.getD (i + 1) []).getD mu 0 := by
    intro mu hmu x hx
    cases mu with
    | zero => exact ⟨0, by omega, Nat.zero_le _, hx⟩
    | succ k => exact hl.cover (by omega) hx
  have covR : ∀ mu < sh.length, ∀ y < (rr ++ [1]).getD mu 0, ∃ j, j + 1 < rcuts.length ∧
      (rcuts.getD j [] ++ [0]).getD mu 0 ≤ y ∧ y < (rcuts.getD (j + 1) [] ++ [1]).getD mu 0 := by
    intro mu hmu y hy
    by_cases hm : mu < sh.length - 1
    · rw [List.getD_append _ _ _ _ (by omega)] at hy
      obtain ⟨j, h1, h2, h3⟩ := hr.cover hm hy
      refine ⟨j, h1, ?_, ?_⟩
      · rw [List.getD_append _ _ _ _ (by rw [hr.len _ (by omega)]; exact hm)]; exact h2
      · rw [List.getD_append _ _ _ _ (by rw [hr.len _ h1]; exact hm)]; exact h3
    · refine ⟨0, by omega, ?_, ?_⟩
      · rw [List.getD_append_right _ _ _ _ (by rw [hr.len _ (by omega)]; omega), hr.len _ (by omega),
          show mu - (sh.length - 1) = 0 by omega]
        exact Nat.zero_le _
      · rw [List.getD_append_right _ _ _ _ (by omega), rlen, show mu - (sh.length - 1) = 0 by omega] at hy
        rw [List.getD_append_right _ _ _ _ (by rw [hr.len _ (by omega)]; omega), hr.len _ (by omega),
          show mu - (sh.length - 1) = 0 by omega]
        exact hy
  have cpsi : s.psi = C.psi := by
    refine list_ext_getD (ND.zeros []) (by rw [h2.has.psiLen, hC.psiLen]) fun mu hmu => ?_
    rw [h2.has.psiLen] at hmu
    refine nd3_ext (h2.has.psi mu hmu) (hC.psi mu hmu) fun x j y hx hj hy => ?_
    obtain ⟨i, i1, i2, i3⟩ := covL mu hmu x hx
    obtain ⟨k, k1, k2, k3⟩ := covR mu hmu y hy
    exact h2.psi (i, k) (hmem i k i1 k1) mu hmu x j y i2 i3 k2 k3 hj
  have com : s.omega = C.omega := by
    refine list_ext_getD (ND.zeros []) (by rw [h2.has.omegaLen, hC.omegaLen]) fun mu hmu => ?_
    rw [h2.has.omegaLen] at hmu
    refine nd2_ext (h2.has.omega mu hmu) (hC.omega mu hmu) fun x y hx hy => ?_
    obtain ⟨i, i1, i2, i3⟩ := hl.cover hmu hx
    obtain ⟨k, k1, k2, k3⟩ := hr.cover hmu hy
    exact h2.omega (i, k) (hmem i k i1 k1) mu hmu x y i2 i3 k2 k3
  obtain ⟨sp, so, ss, sl, sr⟩ := s
  obtain ⟨cp, co, cs, cl, cr⟩ := C
  have e1 : ss = cs := h2.has.shape.trans hC.shape.symm
  have e2 : sl = cl := h2.has.left.trans hC.left.symm
  have e3 : sr = cr := h2.has.right.trans hC.right.symm
  simp only [Container.mk.injEq]
  exact ⟨cpsi, com, e1, e2, e3⟩

end
end TTS
