import Verif.Props.MPO

/-!
# C52: scaling an MPO, and who else is changed by it
-/

namespace TTS.Props

open Finset

variable {K : Type*} [CommSemiring K]

/-- The heaps that programs can produce. -/
def MPOReachable (h : MPOHeap K) : Prop := ∃ prog, MPOHeap.run ⟨[], []⟩ prog = .ok h

/-- `x.cores is y.cores` -/
def SameCores (h : MPOHeap K) (x y : ℕ) : Prop := h.objs.getD x 0 = h.objs.getD y 0

theorem mpoHeap_wf_step {h h' : MPOHeap K} {s : MPOStmt K} (hw : ∀ l ∈ h.objs, l < h.lists.length)
    (hs : h.step s = .ok h') : ∀ l ∈ h'.objs, l < h'.lists.length := by
  have hx : ∀ x, x < h.objs.length → h.objs.getD x 0 < h.lists.length := by
    intro x hx; rw [List.getD_eq_getElem _ _ hx]; exact hw _ (List.getElem_mem hx)
  cases s with
  | new cores =>
    simp only [MPOHeap.step, Except.ok.injEq] at hs
    subst hs
    intro l hl
    simp only [List.mem_append, List.mem_singleton, List.length_append, List.length_singleton] at hl ⊢
    rcases hl with hl | hl
    · have := hw l hl; omega
    · omega
  | mul x c =>
    simp only [MPOHeap.step] at hs
    split at hs
    · rename_i hlt
      simp only [Except.ok.injEq] at hs
      subst hs
      intro l hl
      simp only [List.mem_append, List.mem_singleton, List.length_set] at hl ⊢
      rcases hl with hl | rfl
      · exact hw l hl
      · exact hx x hlt
    · cases hs
  | T x =>
    simp only [MPOHeap.step] at hs
    split at hs
    · simp only [Except.ok.injEq] at hs
      subst hs
      intro l hl
      simp only [List.mem_append, List.mem_singleton, List.length_append, List.length_singleton] at hl ⊢
      rcases hl with hl | hl
      · have := hw l hl; omega
      · omega
    · cases hs
  | share x =>
    simp only [MPOHeap.step] at hs
    split at hs
    · rename_i hlt
      simp only [Except.ok.injEq] at hs
      subst hs
      intro l hl
      simp only [List.mem_append, List.mem_singleton] at hl ⊢
      rcases hl with hl | rfl
      · exact hw l hl
      · exact hx x hlt
    · cases hs

theorem mpoHeap_wf_run : ∀ (prog : List (MPOStmt K)) (h h' : MPOHeap K), (∀ l ∈ h.objs, l < h.lists.length) →
    h.run prog = .ok h' → ∀ l ∈ h'.objs, l < h'.lists.length
  | [], h, h', hw, hr => by cases hr; exact hw
  | s :: ss, h, h', hw, hr => by
    simp only [MPOHeap.run] at hr
    split at hr
    · cases hr
    · rename_i h1 hs
      exact mpoHeap_wf_run ss h1 h' (mpoHeap_wf_step hw hs) hr

theorem mpoHeap_wf {h : MPOHeap K} (hr : MPOReachable h) : ∀ l ∈ h.objs, l < h.lists.length := by
  obtain ⟨prog, hp⟩ := hr
  exact mpoHeap_wf_run prog _ _ (by simp) hp

theorem mulCores_spec (A : MPO K) (hA : A.Valid) (c : K) :
    (MPO.mk (MPO.mulCores A.cores c)).Valid ∧ (MPO.mk (MPO.mulCores A.cores c)).inShape = A.inShape ∧
    (MPO.mk (MPO.mulCores A.cores c)).outShape = A.outShape ∧ (MPO.mk (MPO.mulCores A.cores c)).rank = A.rank ∧
    ∀ j k, (MPO.mk (MPO.mulCores A.cores c)).entry j k = A.entry j k * c := by
  obtain ⟨Ms⟩ := A
  match Ms, hA with
  | M :: Ms, ⟨_, n, m, t, hM, hMs⟩ =>
    refine ⟨⟨by simp [MPO.mulCores], n, m, t, by rw [ND.smul_shape, hM], hMs⟩, rfl, rfl, rfl, ?_⟩
    intro j k
    unfold MPO.entry
    simp only [MPO.mulCores]
    have hM' : (M.smul c).shape = [1, n, m, t] := hM
    match j, k with
    | [], [] => simp [mpoVal]
    | [], _ :: _ => simp [mpoVal]
    | _ :: _, [] => simp [mpoVal]
    | x :: j, y :: k =>
      rw [mpoVal_cons hM', mpoVal_cons hM, sum_mul]
      exact sum_congr rfl fun z _ => by rw [ND.smul_get]; ring

/-- **C52.** In every state a program can reach, and for every `x` that is a well-formed MPO: `x * c` succeeds, and the
new object denotes `c` times what `x` denoted before (same shapes and ranks).  But it also overwrites the operand: `x`
itself, and every other MPO whose core list is the same list object, afterwards is this scaled MPO; all remaining MPOs
are unchanged. -/
theorem C52 (h : MPOHeap K) (hr : MPOReachable h) (x : ℕ) (hx : x < h.objs.length) (hv : (h.mpo x).Valid) (c : K) :
    ∃ h', h.step (.mul x c) = .ok h' ∧ h'.objs.length = h.objs.length + 1 ∧
      let B := h'.mpo h.objs.length
      (B.Valid ∧ B.inShape = (h.mpo x).inShape ∧ B.outShape = (h.mpo x).outShape ∧ B.rank = (h.mpo x).rank ∧
        ∀ j k, InR B.inShape j → InR B.outShape k →
          B.toNumpy.get (interleave j k) = (h.mpo x).toNumpy.get (interleave j k) * c) ∧
      (∀ y < h.objs.length, SameCores h x y → h'.mpo y = B) ∧
      (∀ y < h.objs.length, ¬ SameCores h x y → h'.mpo y = h.mpo y) := by
  have hl : h.objs.getD x 0 < h.lists.length := by
    rw [List.getD_eq_getElem _ _ hx]; exact mpoHeap_wf hr _ (List.getElem_mem hx)
  obtain ⟨s1, s2, s3, s4, s5⟩ := mulCores_spec (h.mpo x) hv c
  have hB : (MPOHeap.mk (h.objs ++ [h.objs.getD x 0])
      (h.lists.set (h.objs.getD x 0) (MPO.mulCores (h.lists.getD (h.objs.getD x 0) []) c))).mpo h.objs.length
      = ⟨MPO.mulCores (h.mpo x).cores c⟩ := by
    unfold MPOHeap.mpo
    simp only
    rw [List.getD_append_right _ _ _ _ (le_refl _), Nat.sub_self, List.getD_cons_zero,
      List.getD_eq_getElem _ _ (by simpa using hl), List.getElem_set_self]
  refine ⟨⟨h.objs ++ [h.objs.getD x 0], h.lists.set (h.objs.getD x 0) (MPO.mulCores (h.lists.getD (h.objs.getD x 0) []) c)⟩,
    ?_, by simp, ?_, ?_, ?_⟩
  · simp only [MPOHeap.step]; rw [if_pos hx]
  · rw [hB]
    refine ⟨s1, s2, s3, s4, fun j k hj hk => ?_⟩
    rw [(C50_dense _ s1).2 j k hj hk, s5, (C50_dense _ hv).2 j k (by rwa [← s2]) (by rwa [← s3])]
  · intro y hy hxy
    rw [hB]
    unfold SameCores at hxy
    unfold MPOHeap.mpo
    simp only
    rw [List.getD_append _ _ _ _ hy, ← hxy, List.getD_eq_getElem _ _ (by simpa using hl), List.getElem_set_self]
  · intro y hy hxy
    unfold SameCores at hxy
    unfold MPOHeap.mpo
    simp only
    rw [List.getD_append _ _ _ _ hy]
    congr 1
    generalize h.objs.getD y 0 = a at *
    by_cases ha : a < h.lists.length
    · rw [List.getD_eq_getElem _ _ (by simpa using ha), List.getD_eq_getElem _ _ ha, List.getElem_set_ne (by omega)]
    · rw [List.getD_eq_default _ _ (by simpa using ha), List.getD_eq_default _ _ (by omega)]

/-- **C52, the operand.** After `B = A * c`, `A` denotes `c` times what it denoted before (so that e.g. `A` and `B`
together denote `2 c A`, not `(1 + c) A`). -/
theorem C52_operand (h : MPOHeap K) (hr : MPOReachable h) (x : ℕ) (hx : x < h.objs.length) (hv : (h.mpo x).Valid)
    (c : K) : ∃ h', h.step (.mul x c) = .ok h' ∧
      ∀ j k, InR (h.mpo x).inShape j → InR (h.mpo x).outShape k →
        (h'.mpo x).toNumpy.get (interleave j k) = (h.mpo x).toNumpy.get (interleave j k) * c ∧
        (h'.mpo x).toNumpy.get (interleave j k) + (h'.mpo h.objs.length).toNumpy.get (interleave j k)
          = (h.mpo x).toNumpy.get (interleave j k) * (2 * c) := by
  obtain ⟨h', h1, h2, ⟨b1, b2, b3, b4, b5⟩, h4, h5⟩ := C52 h hr x hx hv c
  refine ⟨h', h1, fun j k hj hk => ?_⟩
  have := b5 j k (by rwa [b2]) (by rwa [b3])
  rw [h4 x hx rfl, this]
  exact ⟨rfl, by ring⟩

/-- **C52, the other constructors.** Building an MPO from a new list, transposing, and building one on the list of
another one change no existing MPO; a transpose is independent of the original from then on. -/
theorem C52_others (h h' : MPOHeap K) (hr : MPOReachable h) (s : MPOStmt K) (hs : h.step s = .ok h')
    (hm : ∀ x c, s ≠ .mul x c) :
    (∀ y < h.objs.length, h'.mpo y = h.mpo y ∧ ∀ z < h.objs.length, (SameCores h' y z ↔ SameCores h y z)) ∧
    (∀ x, s = .T x → h'.mpo h.objs.length = (h.mpo x).T ∧ ∀ y < h.objs.length, ¬ SameCores h' h.objs.length y) ∧
    (∀ x, s = .share x → h'.mpo h.objs.length = h.mpo x ∧ SameCores h' h.objs.length x) := by
  have hw := mpoHeap_wf hr
  have hlt : ∀ y, y < h.objs.length → h.objs.getD y 0 < h.lists.length := by
    intro y hy; rw [List.getD_eq_getElem _ _ hy]; exact hw _ (List.getElem_mem hy)
  have fresh : ∀ (l : List (ND K)), h' = ⟨h.objs ++ [h.lists.length], h.lists ++ [l]⟩ →
      (∀ y < h.objs.length, h'.mpo y = h.mpo y ∧ ∀ z < h.objs.length, (SameCores h' y z ↔ SameCores h y z)) ∧
      h'.mpo h.objs.length = ⟨l⟩ ∧ ∀ y < h.objs.length, ¬ SameCores h' h.objs.length y := by
    intro l e
    subst e
    refine ⟨fun y hy => ⟨?_, fun z hz => ?_⟩, ?_, fun y hy => ?_⟩
    · unfold MPOHeap.mpo
      simp only
      rw [List.getD_append _ _ _ _ hy, List.getD_append _ _ _ _ (hlt y hy)]
    · unfold SameCores
      simp only
      rw [List.getD_append _ _ _ _ hy, List.getD_append _ _ _ _ hz]
    · unfold MPOHeap.mpo
      simp only
      rw [List.getD_append_right _ _ _ _ (le_refl _), Nat.sub_self, List.getD_cons_zero,
        List.getD_append_right _ _ _ _ (le_refl _), Nat.sub_self, List.getD_cons_zero]
    · unfold SameCores
      simp only
      rw [List.getD_append_right _ _ _ _ (le_refl _), Nat.sub_self, List.getD_cons_zero, List.getD_append _ _ _ _ hy]
      have := hlt y hy
      omega
  cases s with
  | new cores =>
    simp only [MPOHeap.step, Except.ok.injEq] at hs
    exact ⟨(fresh cores hs.symm).1, by simp, by simp⟩
  | mul x c => exact absurd rfl (hm x c)
  | T x =>
    simp only [MPOHeap.step] at hs
    split at hs
    · simp only [Except.ok.injEq] at hs
      obtain ⟨f1, f2, f3⟩ := fresh _ hs.symm
      refine ⟨f1, ?_, by simp⟩
      intro x' e
      cases e
      exact ⟨f2, f3⟩
    · cases hs
  | share x =>
    simp only [MPOHeap.step] at hs
    split at hs
    · rename_i hx
      simp only [Except.ok.injEq] at hs
      subst hs
      refine ⟨fun y hy => ⟨?_, fun z hz => ?_⟩, by simp, ?_⟩
      · unfold MPOHeap.mpo
        simp only
        rw [List.getD_append _ _ _ _ hy]
      · unfold SameCores
        simp only
        rw [List.getD_append _ _ _ _ hy, List.getD_append _ _ _ _ hz]
      · intro x' e
        cases e
        unfold MPOHeap.mpo SameCores
        simp only
        rw [List.getD_append_right _ _ _ _ (le_refl _), Nat.sub_self, List.getD_cons_zero, List.getD_append _ _ _ _ hx]
        exact ⟨rfl, rfl⟩
    · cases hs

/-- A program: `A = MPO(..)`, `B = A.T`, `C = MPO(A.cores)`. -/
example : ∃ h : MPOHeap ℤ, MPOReachable h ∧ 0 < h.objs.length ∧ (h.mpo 0).Valid ∧ SameCores h 0 2 ∧ ¬ SameCores h 0 1 :=
  ⟨⟨[0, 1, 0], [mpo1.cores, mpo1.T.cores]⟩, ⟨[.new mpo1.cores, .T 0, .share 0], rfl⟩, by simp, mpo1_valid, rfl,
    by simp [SameCores]⟩

/-- The operand really changes: for the MPO above and `c = 2`. -/
theorem C52_changes : ∃ (h h' : MPOHeap ℤ), MPOReachable h ∧ (h.mpo 0).Valid ∧ h.step (.mul 0 2) = .ok h' ∧
    (h'.mpo 0).toNumpy.get [1, 2, 2, 0] ≠ (h.mpo 0).toNumpy.get [1, 2, 2, 0] :=
  ⟨⟨[0], [mpo1.cores]⟩, ⟨[0, 0], [MPO.mulCores mpo1.cores 2]⟩, ⟨[.new mpo1.cores], rfl⟩, mpo1_valid, rfl,
    by decide +kernel⟩

end TTS.Props
