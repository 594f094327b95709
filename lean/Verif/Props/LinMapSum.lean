import Verif.Props.Precond
import Verif.Props.MPO

/-!
# C54: sums of linear maps
-/

namespace TTS.Props

open Finset

/-- One map applied to one tensor train. -/
theorem linMap_call (la : LinAlg2) (hq : la.QROk) (ht : la.SolveTriOk) (m : LinMap) (hm : m.Ok la) (X : TT ℝ)
    (hX : X.Valid) (hp : X.Pos) (hs : X.shape = m.inShape) :
    ∃ Y, m.call la X = .ok Y ∧ Y.Valid ∧ Y.shape = m.outShape ∧ m.Maps X.toNumpy.get Y.toNumpy.get := by
  cases m with
  | mpo A =>
    obtain ⟨h1, h2, _, h4⟩ := C50 A X hm hX hs
    exact ⟨_, rfl, h1, h2, h4⟩
  | precond P =>
    obtain ⟨A, n, e, hA, hdet, hmo, hn⟩ := hm
    have hsX : X.shape = P.shape := hs
    obtain ⟨Y, y1, _, y2, y3, y4, y5⟩ := C53_backward la hq ht A P.shape P.mode n hA hdet X hX hp
      (by rw [hsX]; exact hmo) (by rw [hsX]; exact hn)
    rw [← e] at y1
    refine ⟨Y, y1, y2, by rw [y3, hsX]; rfl, ?_⟩
    obtain ⟨G, hG1, hG2⟩ := exists_inv hdet
    intro k hk
    have hPA : P.A = A := by rw [e]; rfl
    rw [hPA, hn]
    exact (modeMul_modeMul hG2 hmo hn (fun i hi => y5 G hG1 i (by rw [hsX]; exact hi)) hk).symm
  | user u =>
    obtain ⟨-, M, hM⟩ := hm
    obtain ⟨Y, y1, y2, y3, _, y5⟩ := hM X hX hp hs
    exact ⟨Y, y1, y2, y3, M, hM, y5⟩

theorem check_ok (m : LinMap) : ∀ (ls : List LinMap), LinMapSum.new.check m ls =
    if ∀ l ∈ ls, l.inShape = m.inShape ∧ l.outShape = m.outShape then .ok () else .error .valueError
  | [] => by simp [LinMapSum.new.check]
  | l :: ls => by
    rw [LinMapSum.new.check]
    by_cases h1 : l.inShape = m.inShape
    · by_cases h2 : l.outShape = m.outShape
      · rw [if_neg (by simp [h1]), if_neg (by simp [h2]), check_ok m ls]
        simp only [List.mem_cons, forall_eq_or_imp, h1, h2, true_and, and_self]
      · rw [if_neg (by simp [h1]), if_pos h2, if_neg]
        intro h; exact h2 (h l (by simp)).2
    · rw [if_pos h1, if_neg]
      intro h; exact h1 (h l (by simp)).1

/-- **C54, construction.** A `TTLinearMapSum` can be built exactly from the nonempty lists of maps that all have the
same input shape and the same output shape, which then are the shapes of the sum; everything else is a `ValueError`. -/
theorem C54_new (maps : List LinMap) :
    (∀ s t, maps ≠ [] → (∀ l ∈ maps, l.inShape = s ∧ l.outShape = t) → LinMapSum.new maps = .ok ⟨s, t, maps⟩) ∧
    ((maps = [] ∨ ∃ l ∈ maps, ∃ l' ∈ maps, l.inShape ≠ l'.inShape ∨ l.outShape ≠ l'.outShape) →
      LinMapSum.new maps = .error .valueError) := by
  cases maps with
  | nil => exact ⟨fun _ _ h => absurd rfl h, fun _ => rfl⟩
  | cons m ms =>
    refine ⟨fun s t _ h => ?_, fun h => ?_⟩
    · have hm := h m (by simp)
      have hc : LinMapSum.new.check m ms = .ok () := by
        rw [check_ok, if_pos]
        intro l hl
        have := h l (List.mem_cons_of_mem _ hl)
        exact ⟨by rw [this.1, hm.1], by rw [this.2, hm.2]⟩
      simp only [LinMapSum.new, hc, hm.1, hm.2]
    · have hc : LinMapSum.new.check m ms = .error .valueError := by
        rw [check_ok, if_neg]
        intro hall
        have hall' : ∀ l ∈ m :: ms, l.inShape = m.inShape ∧ l.outShape = m.outShape := by
          intro l hl
          rcases List.mem_cons.1 hl with rfl | hl
          · exact ⟨rfl, rfl⟩
          · exact hall l hl
        rcases h with h | ⟨l, hl, l', hl', h⟩
        · cases h
        · rcases h with h | h
          · exact h (by rw [(hall' l hl).1, (hall' l' hl').1])
          · exact h (by rw [(hall' l hl).2, (hall' l' hl').2])
      simp only [LinMapSum.new, hc]

theorem mapM_map {α β : Type*} {f : α → Except PyErr β} {g : α → β} : ∀ {l : List α}, (∀ a ∈ l, f a = .ok (g a)) →
    l.mapM f = .ok (l.map g)
  | [], _ => rfl
  | a :: l, h => by
    rw [List.mapM_cons, h a (by simp), mapM_map (l := l) fun b hb => h b (List.mem_cons_of_mem _ hb)]
    rfl

theorem outputs_ok (la : LinAlg2) (Y : LinMap → TT ℝ → TT ℝ) (xs : List (TT ℝ)) : ∀ (ms : List LinMap),
    (∀ m ∈ ms, ∀ x ∈ xs, m.call la x = .ok (Y m x)) →
    LinMapSum.outputs la ms xs = .ok (ms.flatMap fun m => xs.map (Y m))
  | [], _ => rfl
  | m :: ms, h => by
    unfold LinMapSum.outputs
    rw [mapM_map (h m (by simp)), outputs_ok la Y xs ms fun m' hm' => h m' (List.mem_cons_of_mem _ hm')]
    simp

theorem tsum_tt_get (s : List ℕ) : ∀ (ys : List (TT ℝ)), (∀ y ∈ ys, y.Valid ∧ y.shape = s) → ∀ k,
    (TSum.mk s (ys.map Leaf.tt)).toNumpy.get k = (ys.map fun y => y.toNumpy.get k).sum ∧
    (TSum.mk s (ys.map Leaf.tt)).toNumpy.shape = s := by
  intro ys
  induction ys using List.reverseRecOn with
  | nil => intro _ k; simp [TSum.toNumpy]
  | append_singleton ys y ih =>
    intro h k
    have h1 := ih (fun z hz => h z (by simp [hz])) k
    have hy := h y (by simp)
    have e : (TSum.mk s ((ys ++ [y]).map Leaf.tt)).toNumpy = (TSum.mk s (ys.map Leaf.tt)).toNumpy.add y.toNumpy := by
      simp [TSum.toNumpy, Leaf.toNumpy]
    rw [e]
    refine ⟨?_, h1.2⟩
    rw [ND.add_get _ _ (by rw [h1.2, TT.toNumpy_shape hy.1, hy.2]), h1.1]
    simp

theorem flat_sum {α β : Type*} (Y : α → β → TT ℝ) (xs : List β) (f : TT ℝ → ℝ) : ∀ (ms : List α),
    ((ms.flatMap fun m => xs.map (Y m)).map f).sum = (ms.map fun m => (xs.map fun x => f (Y m x)).sum).sum
  | [] => rfl
  | m :: ms => by
    rw [List.flatMap_cons, List.map_append, List.sum_append, List.map_cons, List.sum_cons, flat_sum Y xs f ms, List.map_map]
    rfl

/-- **C54.** A sum of well-formed linear maps applied to a tensor train (`xs = [x]`) or to a lazy sum of tensor trains
succeeds; the summands of the result are all maps applied to all summands, so its entries are the sums of those. -/
theorem C54 (la : LinAlg2) (hq : la.QROk) (ht : la.SolveTriOk) (maps : List LinMap) (S : LinMapSum)
    (hS : LinMapSum.new maps = .ok S) (hm : ∀ m ∈ maps, m.Ok la) (xs : List (TT ℝ)) (hne : xs ≠ [])
    (hx : ∀ x ∈ xs, x.Valid ∧ x.Pos ∧ x.shape = S.inShape) :
    ∃ (Y : LinMap → TT ℝ → TT ℝ) (ys : List (TT ℝ)),
      (∀ m ∈ maps, ∀ x ∈ xs, (Y m x).Valid ∧ (Y m x).shape = S.outShape ∧ m.Maps x.toNumpy.get (Y m x).toNumpy.get) ∧
      S.call la xs = .ok ys ∧ ys.length = maps.length * xs.length ∧ (∀ y ∈ ys, y.Valid ∧ y.shape = S.outShape) ∧
      ∀ k, (TSum.mk S.outShape (ys.map Leaf.tt)).toNumpy.get k
        = (maps.map fun m => (xs.map fun x => (Y m x).toNumpy.get k).sum).sum := by
  classical
  have hmaps : maps ≠ [] := by
    rintro rfl
    simp [LinMapSum.new] at hS
  have hsh : S.maps = maps ∧ ∀ m ∈ maps, m.inShape = S.inShape ∧ m.outShape = S.outShape := by
    by_cases h : ∃ l ∈ maps, ∃ l' ∈ maps, l.inShape ≠ l'.inShape ∨ l.outShape ≠ l'.outShape
    · rw [(C54_new maps).2 (Or.inr h)] at hS; cases hS
    · push Not at h
      obtain ⟨m0, hm0⟩ := List.exists_mem_of_ne_nil _ hmaps
      have := (C54_new maps).1 m0.inShape m0.outShape hmaps fun l hl => h l hl m0 hm0
      rw [this] at hS
      cases hS
      exact ⟨rfl, fun m hm => h m hm m0 hm0⟩
  have hex : ∀ m ∈ maps, ∀ x ∈ xs, ∃ Y, m.call la x = .ok Y ∧ Y.Valid ∧ Y.shape = S.outShape ∧
      m.Maps x.toNumpy.get Y.toNumpy.get := by
    intro m hm' x hx'
    obtain ⟨Y, h1, h2, h3, h4⟩ := linMap_call la hq ht m (hm m hm') x (hx x hx').1 (hx x hx').2.1
      (by rw [(hx x hx').2.2, (hsh.2 m hm').1])
    exact ⟨Y, h1, h2, by rw [h3, (hsh.2 m hm').2], h4⟩
  let Y : LinMap → TT ℝ → TT ℝ := fun m x => if h : m ∈ maps ∧ x ∈ xs then (hex m h.1 x h.2).choose else ⟨[]⟩
  have hY : ∀ m ∈ maps, ∀ x ∈ xs, m.call la x = .ok (Y m x) ∧ (Y m x).Valid ∧ (Y m x).shape = S.outShape ∧
      m.Maps x.toNumpy.get (Y m x).toNumpy.get := by
    intro m hm' x hx'
    have : Y m x = (hex m hm' x hx').choose := dif_pos ⟨hm', hx'⟩
    rw [this]
    exact (hex m hm' x hx').choose_spec
  have hall : ∀ y ∈ maps.flatMap fun m => xs.map (Y m), y.Valid ∧ y.shape = S.outShape := by
    intro y hy
    obtain ⟨m, hm', hy⟩ := List.mem_flatMap.1 hy
    obtain ⟨x, hx', rfl⟩ := List.mem_map.1 hy
    exact ⟨(hY m hm' x hx').2.1, (hY m hm' x hx').2.2.1⟩
  refine ⟨Y, maps.flatMap fun m => xs.map (Y m), fun m hm' x hx' => (hY m hm' x hx').2, ?_, ?_, hall, ?_⟩
  · unfold LinMapSum.call
    rw [hsh.1, outputs_ok la Y xs maps fun m hm' x hx' => (hY m hm' x hx').1]
    cases e : (maps.flatMap fun m => xs.map (Y m)) with
    | nil =>
      exfalso
      obtain ⟨m0, hm0⟩ := List.exists_mem_of_ne_nil _ hmaps
      obtain ⟨x0, hx0⟩ := List.exists_mem_of_ne_nil _ hne
      have : Y m0 x0 ∈ maps.flatMap fun m => xs.map (Y m) :=
        List.mem_flatMap.2 ⟨m0, hm0, List.mem_map.2 ⟨x0, hx0, rfl⟩⟩
      rw [e] at this
      simp at this
    | cons y ys => rfl
  · rw [List.length_flatMap]
    simp
  · intro k
    rw [(tsum_tt_get S.outShape _ hall k).1]
    exact flat_sum Y xs (fun y => y.toNumpy.get k) maps

/-- **C54, sums of MPOs.** For MPOs the result is the sum of the matrices applied to the sum of the inputs. -/
theorem C54_matrix (la : LinAlg2) (hq : la.QROk) (ht : la.SolveTriOk) (As : List (MPO ℝ)) (S : LinMapSum)
    (hS : LinMapSum.new (As.map LinMap.mpo) = .ok S) (hA : ∀ A ∈ As, A.Valid) (xs : List (TT ℝ)) (hne : xs ≠ [])
    (hx : ∀ x ∈ xs, x.Valid ∧ x.Pos ∧ x.shape = S.inShape) :
    ∃ ys, S.call la xs = .ok ys ∧ ∀ k, InR S.outShape k →
      (TSum.mk S.outShape (ys.map Leaf.tt)).toNumpy.get k
        = sumIdx S.inShape fun j => (As.map fun A => A.toNumpy.get (interleave j k)).sum
          * (TSum.mk S.inShape (xs.map Leaf.tt)).toNumpy.get j := by
  obtain ⟨Y, ys, h1, h2, _, h3, h4⟩ := C54 la hq ht _ S hS (by
    intro m hm
    obtain ⟨A, hA', rfl⟩ := List.mem_map.1 hm
    exact hA A hA') xs hne hx
  have hsh : ∀ A ∈ As, A.inShape = S.inShape ∧ A.outShape = S.outShape := by
    have hmaps : As.map LinMap.mpo ≠ [] := by
      intro h
      rw [h] at hS
      simp [LinMapSum.new] at hS
    by_cases h : ∃ l ∈ As.map LinMap.mpo, ∃ l' ∈ As.map LinMap.mpo, l.inShape ≠ l'.inShape ∨ l.outShape ≠ l'.outShape
    · rw [(C54_new _).2 (Or.inr h)] at hS; cases hS
    · push Not at h
      obtain ⟨m0, hm0⟩ := List.exists_mem_of_ne_nil _ hmaps
      have := (C54_new _).1 m0.inShape m0.outShape hmaps fun l hl => h l hl m0 hm0
      rw [this] at hS
      cases hS
      exact fun A hA => h (.mpo A) (List.mem_map_of_mem hA) m0 hm0
  refine ⟨ys, h2, fun k hk => ?_⟩
  rw [h4 k, List.map_map]
  have e : ∀ A ∈ As, (xs.map fun x => (Y (.mpo A) x).toNumpy.get k).sum
      = sumIdx S.inShape fun j => A.toNumpy.get (interleave j k) * (xs.map fun x => x.toNumpy.get j).sum := by
    intro A hA'
    have : ∀ x ∈ xs, (Y (.mpo A) x).toNumpy.get k
        = sumIdx S.inShape fun j => A.toNumpy.get (interleave j k) * x.toNumpy.get j := by
      intro x hx'
      have := (h1 (.mpo A) (List.mem_map_of_mem hA') x hx').2.2 k (by rw [(hsh A hA').2]; exact hk)
      rw [this, (hsh A hA').1]
    rw [List.map_congr_left this, ← sumIdx_list_sum]
    exact sumIdx_congr fun j _ => by rw [List.sum_map_mul_left]
  have e' : (As.map ((fun m => (xs.map fun x => (Y m x).toNumpy.get k).sum) ∘ LinMap.mpo))
      = As.map fun A => sumIdx S.inShape fun j => A.toNumpy.get (interleave j k) * (xs.map fun x => x.toNumpy.get j).sum :=
    List.map_congr_left e
  rw [e', ← sumIdx_list_sum]
  refine sumIdx_congr fun j _ => ?_
  rw [List.sum_map_mul_right, (tsum_tt_get S.inShape xs (fun x hx' => ⟨(hx x hx').1, (hx x hx').2.2⟩) j).1]

/-- **C54, empty sums.** A lazy sum without summands is an `IndexError`. -/
theorem C54_empty (la : LinAlg2) (S : LinMapSum) : S.call la [] = .error .indexError := by
  have : ∀ ms, LinMapSum.outputs la ms [] = .ok [] := by
    intro ms
    induction ms with
    | nil => rfl
    | cons m ms ih => unfold LinMapSum.outputs; rw [ih]; rfl
  unfold LinMapSum.call
  rw [this]

/-- A square MPO on `2 × 3 × 2`. -/
noncomputable def mpo2 : MPO ℝ := ⟨[ND.ofFn [1, 2, 2, 2] fun i => i.getD 1 0 + 2 * i.getD 2 0 + i.getD 3 0,
  ND.ofFn [2, 3, 3, 1] fun i => i.getD 0 0 + i.getD 1 0, ND.ofFn [1, 2, 2, 1] fun i => i.getD 1 0 + 1]⟩

theorem mpo2_valid : mpo2.Valid := ⟨by simp [mpo2], 2, 2, 2, rfl, 3, 3, 1, rfl, 2, 2, 1, rfl, rfl⟩

/-- An MPO and a preconditioner on the first mode, applied to a sum of two tensor trains. -/
example : ∃ la : LinAlg2, ∃ S : LinMapSum, la.QROk ∧ la.SolveTriOk ∧
    LinMapSum.new [.mpo mpo2, .precond (.new la precA [2, 3, 2] 0)] = .ok S ∧
    (LinMap.mpo mpo2).Ok la ∧ (LinMap.precond (.new la precA [2, 3, 2] 0)).Ok la ∧
    x9.Valid ∧ x9.Pos ∧ x9.shape = S.inShape := by
  refine ⟨⟨laChoice, solveTriChoice, fun _ _ => ([], [])⟩, ⟨[2, 3, 2], [2, 3, 2], _⟩, laChoice_qr, solveTriChoice_ok rfl,
    (C54_new _).1 [2, 3, 2] [2, 3, 2] (by simp) ?_, mpo2_valid, ⟨precA, 2, rfl, rfl, ?_, by decide, by decide⟩,
    x9_valid, x9_pos, by decide⟩
  · intro l hl
    simp only [List.mem_cons, List.not_mem_nil, or_false] at hl
    rcases hl with rfl | rfl
    · exact ⟨rfl, rfl⟩
    · exact ⟨rfl, rfl⟩
  · rw [Matrix.det_fin_two]
    simp [ND.asMatrix, precA, ND.ofFn_get']

end TTS.Props
