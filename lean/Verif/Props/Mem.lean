import Verif.Proofs.Mem

/-!
# C76: which tensor objects share memory; C77: cached dictionaries of sparse tensors

`Reachable`, `Uses`, `SameList`, `Mutates`, `Copies` and `Pure` are in `Spec/Mem.lean`.
-/

namespace TTS.Props

open TTS Mem

variable {K : Type*} [CommSemiring K]

/-- **C76, new objects.** A statement other than `x[i] = a` and `a[i] = v` changes no existing tensor. -/
theorem C76_pure (h h' : Mem K) (hr : h.Reachable) (s : MStmt K) (hc : Pure s) (hs : h.step s = .ok h') :
    ∀ x < h.objs.length, h'.val x = h.val x :=
  fun _ hx => (step_create hr.ok hc hs).1.val hr.ok hx

/-! ### invariants -/

/-- lists of cores keep their length -/
def LenOk (h : Mem K) : Prop :=
  ∀ x < h.objs.length, ∀ l, (h.body x).list? = some l → (h.shapeAttr x).length = (h.list l).length

theorem leafOf_shape_length (h : Mem K) (sh : List ℕ) {b : Body} {l : ℕ} (hb : b.list? = some l) :
    (h.leafOf sh b).shape.length = (h.list l).length := by
  cases b with
  | dense a => cases hb
  | sparse ind a => cases hb
  | tt m => cases hb; simp [leafOf, Leaf.shape, TT.shape]
  | cp m => cases hb; simp [leafOf, Leaf.shape, CP.shape]
  | tucker m a => cases hb; simp [leafOf, Leaf.shape, Tucker.shape]

/-- statements make at most one tensor object -/
theorem step_objs {h h' : Mem K} {s : MStmt K} (hs : h.step s = .ok h') :
    h'.objs = h.objs ∨ ∃ (h1 : Mem K) (sh : List ℕ) (b : Body), h' = h1.allocObj sh b ∧ h1.objs = h.objs := by
  cases s with
  | setitem x i a =>
    obtain ⟨-, -, l, -, -, rfl⟩ := step_setitem hs
    exact .inl rfl
  | write a i v =>
    obtain ⟨-, -, rfl⟩ := step_write hs
    exact .inl rfl
  | array A => cases hs; exact .inl rfl
  | list as => simp only [step] at hs; split_ifs at hs; cases hs; exact .inl rfl
  | dense a => simp only [step] at hs; split_ifs at hs; cases hs; exact .inr ⟨_, _, _, rfl, rfl⟩
  | sparse sh ind a => simp only [step] at hs; split_ifs at hs; cases hs; exact .inr ⟨_, _, _, rfl, rfl⟩
  | tt l => simp only [step] at hs; split_ifs at hs; cases hs; exact .inr ⟨_, _, _, rfl, rfl⟩
  | cp l => simp only [step] at hs; split_ifs at hs; cases hs; exact .inr ⟨_, _, _, rfl, rfl⟩
  | tucker l a => simp only [step] at hs; split_ifs at hs; cases hs; exact .inr ⟨_, _, _, rfl, rfl⟩
  | gather x =>
    simp only [step] at hs
    split_ifs at hs
    split at hs <;> (cases hs; exact .inl rfl)
  | T x =>
    simp only [step] at hs
    split_ifs at hs
    split at hs
    · cases hs; exact .inr ⟨_, _, _, rfl, rfl⟩
    · cases hs; exact .inr ⟨_, _, _, rfl, rfl⟩
    · split_ifs at hs; cases hs; exact .inr ⟨_, _, _, rfl, rfl⟩
    · cases hs; exact .inr ⟨_, _, _, rfl, rfl⟩
    · split_ifs at hs; cases hs; exact .inr ⟨_, _, _, rfl, rfl⟩
  | mul x c =>
    simp only [step] at hs
    split_ifs at hs
    split at hs
    · cases hs; exact .inr ⟨_, _, _, rfl, rfl⟩
    · cases hs; exact .inr ⟨_, _, _, rfl, rfl⟩
    · split at hs
      · cases hs
      · cases hs; exact .inr ⟨_, _, _, rfl, rfl⟩
    · split at hs
      · cases hs
      · cases hs; exact .inr ⟨_, _, _, rfl, rfl⟩
    · cases hs; exact .inr ⟨_, _, _, rfl, rfl⟩
  | add x y =>
    simp only [step] at hs
    split_ifs at hs
    split at hs
    · cases hs; exact .inr ⟨_, _, _, rfl, rfl⟩
    · cases hs

/-- list objects keep their length -/
theorem step_list_length {h h' : Mem K} (hO : h.Ok) {s : MStmt K} (hs : h.step s = .ok h') {l : ℕ}
    (hl : l < h.lists.length) : (h'.list l).length = (h.list l).length := by
  by_cases hc : Pure s
  · rw [(step_create hO hc hs).1.list hl]
  cases s with
  | setitem x i a =>
    obtain ⟨-, -, m, -, -, rfl⟩ := step_setitem hs
    by_cases e : l = m
    · subst e
      show ((h.lists.set l _).getD l []).length = _
      rw [getD_set_self hl, List.length_set]
    · exact congrArg List.length (getD_set_ne e _ _)
  | write a i v =>
    obtain ⟨-, -, rfl⟩ := step_write hs
    rfl
  | _ => exact absurd trivial hc

/-- the new tensor object -/
theorem allocObj_shapeAttr (h : Mem K) (sh : List ℕ) (b : Body) :
    (h.allocObj sh b).shapeAttr h.objs.length = (h.leafOf sh b).shape := by
  show ((h.objs ++ [_]).getD _ _).shape = _
  simp

theorem step_lenOk {h h' : Mem K} (hO : h.Ok) (hL : LenOk h) {s : MStmt K} (hs : h.step s = .ok h') : LenOk h' := by
  intro x hx l hl
  have e := step_pre hO hs
  by_cases h1 : x < h.objs.length
  · rw [e.body h1] at hl
    rw [e.shapeAttr h1, hL x h1 l hl, step_list_length hO hs (hO.objs_list x h1 l hl)]
  · rcases step_objs hs with h2 | ⟨h2, sh, b, rfl, e2⟩
    · rw [h2] at hx
      exact absurd hx h1
    · rw [allocObj_length, e2] at hx
      obtain rfl : x = h2.objs.length := by rw [e2]; omega
      rw [allocObj_body] at hl
      rw [allocObj_shapeAttr, leafOf_shape_length _ _ hl]
      rfl

theorem run_lenOk : ∀ {p : List (MStmt K)} {h h' : Mem K}, h.Ok → LenOk h → h.run p = .ok h' → LenOk h'
  | [], h, h', _, hL, hr => by cases hr; exact hL
  | s :: p, h, h', hO, hL, hr => by
    obtain ⟨h1, hs, hr⟩ := run_cons hr
    exact run_lenOk (step_ok hO hs) (step_lenOk hO hL hs) hr

theorem reachable_lenOk {h : Mem K} (hr : h.Reachable) : LenOk h := by
  obtain ⟨p, hp⟩ := hr
  exact run_lenOk empty_ok (fun x hx => by simp [Mem.empty] at hx) hp

/-! ### the values of new objects -/

theorem flip_three {A : ND K} (h : A.ndim = 3) : A.transpose [2, 1, 0] = Mem.flip A := by
  unfold Mem.flip
  rw [h]
  rfl

/-- array object `b` is the view of array object `a` with the axes reversed -/
def IsView (h : Mem K) (a b : ℕ) : Prop :=
  (h.arrObj b).buf = (h.arrObj a).buf ∧ (h.arrObj b).rev = !(h.arrObj a).rev

theorem isView_of {h h' : Mem K} {a b : ℕ} (e1 : h'.arrObj a = h.arrObj a)
    (e2 : h'.arrObj b = ⟨(h.arrObj a).buf, !(h.arrObj a).rev⟩) : IsView h' a b := by
  unfold IsView
  rw [e1, e2]
  exact ⟨rfl, rfl⟩

/-- how `x.T` refers to the memory of `x` -/
def Transposed (h : Mem K) (x z : ℕ) : Body → Body → Prop
  | .dense a, .dense b => IsView h a b
  | .sparse ind a, .sparse ind' b => ind' = ind.map List.reverse ∧ b = a ∧ h.shapeAttr z = (h.shapeAttr x).reverse
  | .tt l, .tt m => (∀ a ∈ h.list l, (h.arr a).ndim = 3) ∧ List.Forall₂ (IsView h) (h.list l).reverse (h.list m)
  | .cp l, .cp m => h.list m = (h.list l).reverse
  | .tucker l a, .tucker m b =>
    (h.arr a).ndim = (h.list l).length ∧ h.list m = (h.list l).reverse ∧ IsView h a b
  | _, _ => False

theorem transposed_val {h : Mem K} {x z : ℕ} (ht : Transposed h x z (h.body x) (h.body z)) : h.val z = (h.val x).T := by
  unfold Mem.val
  generalize h.body x = b at ht
  generalize h.body z = b' at ht
  cases b with
  | dense a =>
    cases b' with
    | dense a' => show Leaf.dense _ = _; rw [arr_view ht.1 ht.2]; rfl
    | _ => exact ht.elim
  | sparse ind a =>
    cases b' with
    | sparse ind' a' =>
      obtain ⟨rfl, rfl, h3⟩ := ht
      show Leaf.sparse _ = Leaf.sparse _
      congr 1
      show Sparse.mk _ _ = Sparse.mk _ _
      rw [h3]
      congr 1
      rw [List.zip_map_left]
      rfl
    | _ => exact ht.elim
  | tt l =>
    cases b' with
    | tt m =>
      obtain ⟨h1, h2⟩ := ht
      show Leaf.tt _ = Leaf.tt _
      congr 1
      show TT.mk _ = TT.mk _
      congr 1
      rw [List.forall₂_iff_get] at h2
      obtain ⟨h2, h3⟩ := h2
      refine List.ext_getElem (by simpa using h2.symm) fun k k1 k2 => ?_
      have hk : k < (h.list m).length := by simpa using k1
      have hk' : k < (h.list l).reverse.length := by rw [h2]; exact hk
      have h4 : IsView h ((h.list l).reverse[k]) ((h.list m)[k]) := h3 k hk' hk
      have ha : (h.list l).reverse[k] ∈ h.list l := List.mem_reverse.1 (List.getElem_mem _)
      rw [List.getElem_map, arr_view h4.1 h4.2, ← flip_three (h1 _ ha)]
      simp
    | _ => exact ht.elim
  | cp l =>
    cases b' with
    | cp m =>
      show Leaf.cp ⟨(h.list m).map h.arr⟩ = _
      rw [show h.list m = (h.list l).reverse from ht, List.map_reverse]
      rfl
    | _ => exact ht.elim
  | tucker l a =>
    cases b' with
    | tucker m a' =>
      obtain ⟨h1, h2, h3⟩ := ht
      show Leaf.tucker ⟨(h.list m).map h.arr, h.arr a'⟩ = Leaf.tucker ⟨((h.list l).map h.arr).reverse,
        (h.arr a).transpose (List.range (((h.list l).map h.arr).map fun U => U.dim 1).length).reverse⟩
      rw [h2, List.map_reverse, arr_view h3.1 h3.2]
      congr 2
      unfold Mem.flip
      rw [List.length_map, List.length_map, h1]
    | _ => exact ht.elim

theorem step_T {h h' : Mem K} (hO : h.Ok) (hL : LenOk h) {x : ℕ} (hs : h.step (.T x) = .ok h') :
    x < h.objs.length ∧ h'.objs.length = h.objs.length + 1 ∧
      Transposed h' x h.objs.length (h'.body x) (h'.body h.objs.length) := by
  have e := (step_create hO (s := .T x) trivial hs).1
  simp only [step] at hs
  split_ifs at hs with h1
  refine ⟨h1, ?_⟩
  rw [e.body h1]
  have hb := hO.body h1
  have hLx := hL x h1
  generalize h.body x = b at hb hs hLx
  generalize hsh : h.shapeAttr x = sh at hs hLx
  cases b with
  | dense a =>
    cases hs
    refine ⟨allocObj_length _ _ _, ?_⟩
    have e1 := allocObj_body (h.allocViews [a]) [] (.dense h.arrs.length)
    rw [show (h.allocViews [a]).objs.length = h.objs.length from rfl] at e1
    rw [e1]
    have e2 := allocViews_obj h [a] (k := 0) (by simp)
    have e3 := e.arrObj (hb.arr a rfl)
    exact isView_of e3 e2
  | sparse ind a =>
    cases hs
    refine ⟨allocObj_length _ _ _, ?_⟩
    rw [allocObj_body]
    refine ⟨rfl, rfl, ?_⟩
    rw [allocObj_shapeAttr, e.shapeAttr h1, hsh]
    rfl
  | tt l =>
    simp only at hs
    split_ifs at hs with h2
    cases hs
    refine ⟨allocObj_length _ _ _, ?_⟩
    have e1 := allocObj_body ((h.allocViews (h.list l).reverse).allocList
      ((List.range (h.list l).length).map fun k => h.arrs.length + k)) [] (.tt h.lists.length)
    rw [show ((h.allocViews (h.list l).reverse).allocList _).objs.length = h.objs.length from rfl] at e1
    rw [e1]
    have e2 := allocList_last (h.allocViews (h.list l).reverse)
      ((List.range (h.list l).length).map fun k => h.arrs.length + k)
    have hl := hb.list l rfl
    refine ⟨fun a ha => ?_, ?_⟩
    · rw [e.list hl] at ha
      rw [e.arr hO (hO.lists l hl a ha)]
      exact h2 a ha
    · rw [e.list hl]
      show List.Forall₂ _ _ (((h.allocViews (h.list l).reverse).allocList _).list h.lists.length)
      rw [show h.lists.length = (h.allocViews (h.list l).reverse).lists.length from rfl, e2, List.forall₂_iff_get]
      refine ⟨by simp, fun k k1 k2 => ?_⟩
      have ha : (h.list l).reverse[k] ∈ h.list l := List.mem_reverse.1 (List.getElem_mem _)
      have e3 := allocViews_obj h (h.list l).reverse k1
      rw [List.getD_eq_getElem _ _ k1] at e3
      have e4 := e.arrObj (hO.lists l hl _ ha)
      have e5 : ((List.range (h.list l).length).map fun k => h.arrs.length + k).get ⟨k, k2⟩ = h.arrs.length + k := by simp
      rw [e5]
      exact isView_of e4 e3
  | cp l =>
    cases hs
    refine ⟨allocObj_length _ _ _, ?_⟩
    have e1 := allocObj_body (h.allocList (h.list l).reverse) [] (.cp h.lists.length)
    rw [show (h.allocList (h.list l).reverse).objs.length = h.objs.length from rfl] at e1
    rw [e1]
    show Mem.list _ _ = (Mem.list _ _).reverse
    rw [e.list (hb.list l rfl)]
    exact allocList_last h (h.list l).reverse
  | tucker l a =>
    simp only at hs
    split_ifs at hs with h2
    cases hs
    refine ⟨allocObj_length _ _ _, ?_⟩
    have e1 := allocObj_body ((h.allocViews [a]).allocList (h.list l).reverse) [] (.tucker h.lists.length h.arrs.length)
    rw [show ((h.allocViews [a]).allocList (h.list l).reverse).objs.length = h.objs.length from rfl] at e1
    rw [e1]
    have e2 := allocViews_obj h [a] (k := 0) (by simp)
    have e3 := e.arrObj (hb.arr a rfl)
    refine ⟨?_, ?_, ?_⟩
    · rw [e.arr hO (hb.arr a rfl), e.list (hb.list l rfl), h2, hLx l rfl]
    · rw [e.list (hb.list l rfl)]
      exact allocList_last (h.allocViews [a]) (h.list l).reverse
    · exact isView_of e3 e2

/-- **C76, `x.T`** makes a new object that is the transpose of what `x` is now. -/
theorem C76_T (h h' : Mem K) (hr : h.Reachable) (x : ℕ) (hs : h.step (.T x) = .ok h') :
    h'.objs.length = h.objs.length + 1 ∧ h'.val h.objs.length = (h.val x).T := by
  obtain ⟨h1, h2, h3⟩ := step_T hr.ok (reachable_lenOk hr) hs
  exact ⟨h2, (transposed_val h3).trans (congrArg _ (C76_pure h h' hr (.T x) trivial hs x h1))⟩

/-- **C76, `x * c`** makes a new object that is `c` times what `x` is now. -/
theorem C76_mul (h h' : Mem K) (hr : h.Reachable) (x : ℕ) (c : K) (hs : h.step (.mul x c) = .ok h') :
    h'.objs.length = h.objs.length + 1 ∧ h'.val h.objs.length = (h.val x).mul c := by
  have hO := hr.ok
  simp only [step] at hs
  split_ifs at hs with h1
  have hb := hO.body h1
  unfold Mem.val
  generalize h.body x = b at hb hs
  generalize hsh : h.shapeAttr x = sh at hs
  cases b with
  | dense a =>
    cases hs
    refine ⟨allocObj_length _ _ _, ?_⟩
    refine (allocObj_val (h.allocArrs _) [] (.dense h.arrs.length)).trans ?_
    rw [leafOf_shape]
    have := allocArrs_arr h [(h.arr a).smul c] (k := 0) (by simp)
    show Leaf.dense ((h.allocArrs _).arr (h.arrs.length + 0)) = _
    rw [this]
    rfl
  | sparse ind a =>
    cases hs
    refine ⟨allocObj_length _ _ _, ?_⟩
    refine (allocObj_val (h.allocArrs _) sh (.sparse ind h.arrs.length)).trans ?_
    rw [leafOf_shape]
    have := allocArrs_arr h [(h.arr a).smul c] (k := 0) (by simp)
    have this : (h.allocArrs [(h.arr a).smul c]).arr h.arrs.length = (h.arr a).smul c := this
    show Leaf.sparse _ = Leaf.sparse _
    congr 1
    show Sparse.mk _ _ = Sparse.mk _ _
    congr 1
    rw [this]
    show ind.zip ((List.range (h.arr a).size).map fun k => ((h.arr a).smul c).get [k])
      = (ind.zip ((List.range (h.arr a).size).map fun k => (h.arr a).get [k])).map fun e => (e.1, e.2 * c)
    simp only [ND.smul_get]
    have e : (fun k => (h.arr a).get [k] * c) = (fun v => v * c) ∘ fun k => (h.arr a).get [k] := rfl
    rw [e, ← List.map_map, List.zip_map_right]
    rfl
  | tt l =>
    simp only at hs
    split at hs
    · cases hs
    rename_i z hz
    cases hs
    refine ⟨allocObj_length _ _ _, ?_⟩
    refine (allocObj_val ((h.allocArrs _).allocList _) [] (.tt h.lists.length)).trans ?_
    rw [leafOf_shape]
    show Leaf.tt _ = Leaf.tt _
    congr 1
    show TT.mk _ = TT.mk _
    congr 1
    set As := (h.list l).dedup.map h.arr ++ [(h.arr z).smul c] with hAs
    have hlen : As.length = (h.list l).dedup.length + 1 := by simp [hAs]
    have e := allocList_last (h.allocArrs As)
      ((h.list l).dropLast.map (fun a => h.arrs.length + (h.list l).dedup.idxOf a) ++ [h.arrs.length + (h.list l).dedup.length])
    rw [show (h.allocArrs As).lists.length = h.lists.length from rfl] at e
    rw [e, List.map_append, List.map_map, List.map_singleton]
    show List.map ((h.allocArrs As).arr ∘ _) _ ++ [(h.allocArrs As).arr _]
      = ((h.list l).map h.arr).dropLast ++ (((h.list l).map h.arr).getLast?.map fun C => C.smul c).toList
    rw [← List.map_dropLast, List.getLast?_map, hz]
    congr 1
    · refine List.map_congr_left fun a ha => ?_
      have hd : (h.list l).dedup.idxOf a < (h.list l).dedup.length :=
        List.idxOf_lt_length_iff.2 (List.mem_dedup.2 (List.mem_of_mem_dropLast ha))
      show (h.allocArrs As).arr (h.arrs.length + _) = _
      rw [allocArrs_arr h As (by omega), hAs, List.getD_append _ _ _ _ (by simpa using hd),
        List.getD_eq_getElem _ _ (by simpa using hd), List.getElem_map, List.getElem_idxOf]
    · rw [allocArrs_arr h As (by omega), hAs, List.getD_append_right _ _ _ _ (by simp)]
      simp
  | cp l =>
    simp only at hs
    split at hs
    · cases hs
    rename_i a as hl
    cases hs
    refine ⟨allocObj_length _ _ _, ?_⟩
    refine (allocObj_val ((h.allocArrs _).allocList _) [] (.cp h.lists.length)).trans ?_
    rw [leafOf_shape]
    have e1 := allocArrs_arr h [(h.arr a).smul c] (k := 0) (by simp)
    have e2 := allocList_last (h.allocArrs [(h.arr a).smul c]) (h.arrs.length :: as)
    rw [show (h.allocArrs [(h.arr a).smul c]).lists.length = h.lists.length from rfl] at e2
    show Leaf.cp ⟨(((h.allocArrs _).allocList _).list h.lists.length).map (h.allocArrs _).arr⟩
      = Leaf.cp (CP.mul ⟨(h.list l).map h.arr⟩ c)
    rw [e2, hl]
    show Leaf.cp ⟨(h.allocArrs _).arr (h.arrs.length + 0) :: as.map (h.allocArrs _).arr⟩
      = Leaf.cp ⟨(h.arr a).smul c :: as.map h.arr⟩
    rw [e1]
    congr 3
    refine List.map_congr_left fun b hb' => (allocArrs_ext h _).arr hO (hO.lists l (hb.list l rfl) b ?_)
    rw [hl]
    exact List.mem_cons_of_mem _ hb'
  | tucker l a =>
    cases hs
    refine ⟨allocObj_length _ _ _, ?_⟩
    refine (allocObj_val (h.allocArrs _) [] (.tucker l h.arrs.length)).trans ?_
    rw [leafOf_shape]
    have e1 := allocArrs_arr h [(h.arr a).smul c] (k := 0) (by simp)
    show Leaf.tucker ⟨(h.list l).map (h.allocArrs _).arr, (h.allocArrs _).arr (h.arrs.length + 0)⟩
      = Leaf.tucker ⟨(h.list l).map h.arr, (h.arr a).smul c⟩
    rw [e1]
    congr 2
    exact List.map_congr_left fun b hb' => (allocArrs_ext h _).arr hO (hO.lists l (hb.list l rfl) b hb')

/-- **C76, `x.add(y)`** makes a new tensor train. -/
theorem C76_add (h h' : Mem K) (x y : ℕ) (hs : h.step (.add x y) = .ok h') :
    h'.objs.length = h.objs.length + 1 ∧
      ∃ X Y, h.val x = .tt X ∧ h.val y = .tt Y ∧ h'.val h.objs.length = .tt (X.add Y) := by
  simp only [step] at hs
  split_ifs at hs with h1
  split at hs
  · rename_i X Y hX hY
    cases hs
    refine ⟨allocObj_length _ _ _, X, Y, hX, hY, ?_⟩
    refine (allocObj_val ((h.allocArrs _).allocList _) [] (.tt h.lists.length)).trans ?_
    rw [leafOf_shape]
    have e := allocList_last (h.allocArrs (X.add Y).cores)
      ((List.range (X.add Y).cores.length).map fun k => h.arrs.length + k)
    rw [show (h.allocArrs (X.add Y).cores).lists.length = h.lists.length from rfl] at e
    show Leaf.tt ⟨(((h.allocArrs _).allocList _).list h.lists.length).map (h.allocArrs _).arr⟩ = _
    rw [e]
    show Leaf.tt _ = Leaf.tt (TT.mk (X.add Y).cores)
    congr 2
    refine List.ext_getElem (by simp) fun k k1 k2 => ?_
    simp only [List.getElem_map, List.getElem_range]
    rw [allocArrs_arr h _ k2, List.getD_eq_getElem _ _ k2]
  · cases hs

end TTS.Props
