import Verif.Spec.Mem
import Verif.NDLemmas

/-! Proofs about tensor objects in memory. -/

namespace TTS.Mem

variable {K : Type*} [CommSemiring K]

/-! ### extensions -/

/-- only new objects have been added -/
structure Ext (h h' : Mem K) : Prop where
  bufs : h.bufs <+: h'.bufs
  arrs : h.arrs <+: h'.arrs
  lists : h.lists <+: h'.lists
  objs : h.objs <+: h'.objs

theorem Ext.refl (h : Mem K) : Ext h h := ⟨List.prefix_rfl, List.prefix_rfl, List.prefix_rfl, List.prefix_rfl⟩

theorem Ext.trans {h h1 h2 : Mem K} (a : Ext h h1) (b : Ext h1 h2) : Ext h h2 :=
  ⟨a.1.trans b.1, a.2.trans b.2, a.3.trans b.3, a.4.trans b.4⟩

theorem getD_prefix {α : Type*} {l l' : List α} (h : l <+: l') {k : ℕ} (hk : k < l.length) (d : α) :
    l'.getD k d = l.getD k d := by
  obtain ⟨m, rfl⟩ := h
  rw [List.getD_append _ _ _ _ hk]

theorem allocArrs_ext (h : Mem K) (As : List (ND K)) : Ext h (h.allocArrs As) :=
  ⟨List.prefix_append _ _, List.prefix_append _ _, List.prefix_rfl, List.prefix_rfl⟩

theorem allocViews_ext (h : Mem K) (as : List ℕ) : Ext h (h.allocViews as) :=
  ⟨List.prefix_rfl, List.prefix_append _ _, List.prefix_rfl, List.prefix_rfl⟩

theorem allocList_ext (h : Mem K) (as : List ℕ) : Ext h (h.allocList as) :=
  ⟨List.prefix_rfl, List.prefix_rfl, List.prefix_append _ _, List.prefix_rfl⟩

theorem allocObj_ext (h : Mem K) (sh : List ℕ) (b : Body) : Ext h (h.allocObj sh b) :=
  ⟨List.prefix_rfl, List.prefix_rfl, List.prefix_rfl, List.prefix_append _ _⟩

theorem Ext.arrObj {h h' : Mem K} (e : Ext h h') {a : ℕ} (ha : a < h.arrs.length) : h'.arrObj a = h.arrObj a :=
  getD_prefix e.arrs ha _

theorem Ext.arr {h h' : Mem K} (e : Ext h h') (hO : h.Ok) {a : ℕ} (ha : a < h.arrs.length) : h'.arr a = h.arr a := by
  unfold Mem.arr
  rw [e.arrObj ha, getD_prefix e.bufs (hO.bufs a ha)]

theorem Ext.list {h h' : Mem K} (e : Ext h h') {l : ℕ} (hl : l < h.lists.length) : h'.list l = h.list l :=
  getD_prefix e.lists hl _

theorem Ext.body {h h' : Mem K} (e : Ext h h') {x : ℕ} (hx : x < h.objs.length) : h'.body x = h.body x := by
  unfold Mem.body
  rw [getD_prefix e.objs hx]

theorem Ext.shapeAttr {h h' : Mem K} (e : Ext h h') {x : ℕ} (hx : x < h.objs.length) :
    h'.shapeAttr x = h.shapeAttr x := by
  unfold Mem.shapeAttr
  rw [getD_prefix e.objs hx]

/-- the value of some data attributes depends on the arrays only -/
theorem leafOf_congr {h h' : Mem K} {sh : List ℕ} {b : Body} (h1 : ∀ l, b.list? = some l → h'.list l = h.list l)
    (h2 : ∀ l, b.list? = some l → ∀ a ∈ h.list l, h'.arr a = h.arr a) (h3 : ∀ a, b.arr? = some a → h'.arr a = h.arr a) :
    h'.leafOf sh b = h.leafOf sh b := by
  have e : ∀ l, b.list? = some l → (h'.list l).map h'.arr = (h.list l).map h.arr := fun l hl => by
    rw [h1 l hl]
    exact List.map_congr_left fun a ha => h2 l hl a ha
  cases b with
  | dense a => simp only [leafOf]; rw [h3 a rfl]
  | sparse ind a => simp only [leafOf]; rw [h3 a rfl]
  | tt l => simp only [leafOf]; rw [e l rfl]
  | cp l => simp only [leafOf]; rw [e l rfl]
  | tucker l a => simp only [leafOf]; rw [e l rfl, h3 a rfl]

/-- data attributes that refer to existing objects -/
structure BodyOk (h : Mem K) (b : Body) : Prop where
  list : ∀ l, b.list? = some l → l < h.lists.length
  arr : ∀ a, b.arr? = some a → a < h.arrs.length

theorem Ok.body {h : Mem K} (hO : h.Ok) {x : ℕ} (hx : x < h.objs.length) : h.BodyOk (h.body x) :=
  ⟨hO.objs_list x hx, hO.objs_arr x hx⟩

theorem Ext.leafOf {h h' : Mem K} (e : Ext h h') (hO : h.Ok) {sh : List ℕ} {b : Body} (hb : h.BodyOk b) :
    h'.leafOf sh b = h.leafOf sh b :=
  leafOf_congr (fun l hl => e.list (hb.list l hl)) (fun l hl a ha => e.arr hO (hO.lists l (hb.list l hl) a ha))
    fun a ha => e.arr hO (hb.arr a ha)

theorem Ext.val {h h' : Mem K} (e : Ext h h') (hO : h.Ok) {x : ℕ} (hx : x < h.objs.length) : h'.val x = h.val x := by
  unfold Mem.val
  rw [e.body hx, e.shapeAttr hx, e.leafOf hO (hO.body hx)]

theorem Ext.bodyOk {h h' : Mem K} (e : Ext h h') {b : Body} (hb : h.BodyOk b) : h'.BodyOk b :=
  ⟨fun l hl => (hb.list l hl).trans_le e.lists.length_le, fun a ha => (hb.arr a ha).trans_le e.arrs.length_le⟩

/-! ### allocation keeps the numbers in order -/

theorem empty_ok : (Mem.empty : Mem K).Ok := ⟨by simp [empty], by simp [empty], by simp [empty], by simp [empty]⟩

theorem allocArrs_length (h : Mem K) (As : List (ND K)) : (h.allocArrs As).arrs.length = h.arrs.length + As.length := by
  simp [allocArrs]

theorem allocArrs_obj (h : Mem K) (As : List (ND K)) {k : ℕ} (hk : k < As.length) :
    (h.allocArrs As).arrObj (h.arrs.length + k) = ⟨h.bufs.length + k, false⟩ := by
  show (h.arrs ++ _).getD _ _ = _
  rw [List.getD_append_right _ _ _ _ (by omega), Nat.add_sub_cancel_left, List.getD_eq_getElem _ _ (by simpa using hk)]
  simp

theorem allocArrs_arr (h : Mem K) (As : List (ND K)) {k : ℕ} (hk : k < As.length) :
    (h.allocArrs As).arr (h.arrs.length + k) = As.getD k (ND.zeros []) := by
  unfold Mem.arr
  rw [allocArrs_obj h As hk]
  show (h.bufs ++ As).getD _ _ = _
  rw [List.getD_append_right _ _ _ _ (by simp), Nat.add_sub_cancel_left]

theorem allocArrs_ok {h : Mem K} (hO : h.Ok) (As : List (ND K)) : (h.allocArrs As).Ok := by
  have e := allocArrs_ext h As
  refine ⟨fun a ha => ?_, fun l hl a ha => ?_, fun x hx l hl => ?_, fun x hx a ha => ?_⟩
  · have hb : (h.allocArrs As).bufs.length = h.bufs.length + As.length := by simp [allocArrs]
    rw [hb]
    rcases Nat.lt_or_ge a h.arrs.length with h1 | h1
    · rw [e.arrObj h1]
      have := hO.bufs a h1
      omega
    · rw [allocArrs_length] at ha
      obtain ⟨k, rfl⟩ := Nat.exists_eq_add_of_le h1
      rw [allocArrs_obj h As (by omega)]
      show h.bufs.length + k < _
      omega
  · have := hO.lists l hl a ha
    rw [allocArrs_length]
    omega
  · exact hO.objs_list x hx l hl
  · have := hO.objs_arr x hx a ha
    rw [allocArrs_length]
    omega

theorem allocViews_length (h : Mem K) (as : List ℕ) : (h.allocViews as).arrs.length = h.arrs.length + as.length := by
  simp [allocViews]

theorem allocViews_obj (h : Mem K) (as : List ℕ) {k : ℕ} (hk : k < as.length) :
    (h.allocViews as).arrObj (h.arrs.length + k)
      = ⟨(h.arrObj (as.getD k 0)).buf, !(h.arrObj (as.getD k 0)).rev⟩ := by
  show (h.arrs ++ _).getD _ _ = _
  rw [List.getD_append_right _ _ _ _ (by omega), Nat.add_sub_cancel_left, List.getD_eq_getElem _ _ (by simpa using hk),
    List.getD_eq_getElem _ _ hk]
  simp

theorem flip_get (A : ND K) (i : List ℕ) : (flip A).get i = A.get i.reverse := ND.transpose_rev_get A i

theorem flip_shape (A : ND K) : (flip A).shape = A.shape.reverse := ND.transpose_rev_shape A

theorem flip_flip (A : ND K) : flip (flip A) = A := by
  refine ND.ext' (by rw [flip_shape, flip_shape, List.reverse_reverse]) fun i _ => ?_
  rw [flip_get, flip_get, List.reverse_reverse]

/-- a view with reversed axes always shows the reversed array -/
theorem arr_view {h : Mem K} {a b : ℕ} (h1 : (h.arrObj b).buf = (h.arrObj a).buf)
    (h2 : (h.arrObj b).rev = !(h.arrObj a).rev) : h.arr b = flip (h.arr a) := by
  unfold Mem.arr
  rw [h1, h2]
  cases (h.arrObj a).rev
  · rfl
  · simp [flip_flip]

theorem allocViews_arr {h : Mem K} (hO : h.Ok) (as : List ℕ) {k : ℕ} (hk : k < as.length)
    (ha : as.getD k 0 < h.arrs.length) : (h.allocViews as).arr (h.arrs.length + k) = flip (h.arr (as.getD k 0)) := by
  rw [← (allocViews_ext h as).arr hO ha]
  refine arr_view ?_ ?_
  · rw [allocViews_obj h as hk, (allocViews_ext h as).arrObj ha]
  · rw [allocViews_obj h as hk, (allocViews_ext h as).arrObj ha]

theorem allocViews_ok {h : Mem K} (hO : h.Ok) (as : List ℕ) (has : ∀ a ∈ as, a < h.arrs.length) :
    (h.allocViews as).Ok := by
  have e := allocViews_ext h as
  refine ⟨fun a ha => ?_, fun l hl a ha => ?_, fun x hx l hl => ?_, fun x hx a ha => ?_⟩
  · show _ < h.bufs.length
    rcases Nat.lt_or_ge a h.arrs.length with h1 | h1
    · rw [e.arrObj h1]
      exact hO.bufs a h1
    · rw [allocViews_length] at ha
      obtain ⟨k, rfl⟩ := Nat.exists_eq_add_of_le h1
      have hk : k < as.length := by omega
      rw [allocViews_obj h as hk]
      refine hO.bufs _ (has _ ?_)
      rw [List.getD_eq_getElem _ _ hk]
      exact List.getElem_mem _
  · have := hO.lists l hl a ha
    rw [allocViews_length]
    omega
  · exact hO.objs_list x hx l hl
  · have := hO.objs_arr x hx a ha
    rw [allocViews_length]
    omega

theorem allocList_last (h : Mem K) (as : List ℕ) : (h.allocList as).list h.lists.length = as := by
  show (h.lists ++ [as]).getD _ _ = _
  simp

theorem allocList_ok {h : Mem K} (hO : h.Ok) (as : List ℕ) (has : ∀ a ∈ as, a < h.arrs.length) :
    (h.allocList as).Ok := by
  have e := allocList_ext h as
  have hl' : (h.allocList as).lists.length = h.lists.length + 1 := by simp [allocList]
  refine ⟨hO.bufs, fun l hl a ha => ?_, fun x hx l hl => ?_, hO.objs_arr⟩
  · rcases Nat.lt_or_ge l h.lists.length with h1 | h1
    · rw [e.list h1] at ha
      exact hO.lists l h1 a ha
    · obtain rfl : l = h.lists.length := by omega
      rw [allocList_last] at ha
      exact has a ha
  · have := hO.objs_list x hx l hl
    omega

theorem allocObj_body (h : Mem K) (sh : List ℕ) (b : Body) : (h.allocObj sh b).body h.objs.length = b := by
  show ((h.objs ++ [_]).getD _ _).body = _
  simp

theorem allocObj_length (h : Mem K) (sh : List ℕ) (b : Body) : (h.allocObj sh b).objs.length = h.objs.length + 1 := by
  simp [allocObj]

theorem allocObj_ok {h : Mem K} (hO : h.Ok) (sh : List ℕ) {b : Body} (hb : h.BodyOk b) : (h.allocObj sh b).Ok := by
  have e := allocObj_ext h sh b
  refine ⟨hO.bufs, hO.lists, fun x hx l hl => ?_, fun x hx a ha => ?_⟩
  · rcases Nat.lt_or_ge x h.objs.length with h1 | h1
    · rw [e.body h1] at hl
      exact hO.objs_list x h1 l hl
    · rw [allocObj_length] at hx
      obtain rfl : x = h.objs.length := by omega
      rw [allocObj_body] at hl
      exact hb.list l hl
  · rcases Nat.lt_or_ge x h.objs.length with h1 | h1
    · rw [e.body h1] at ha
      exact hO.objs_arr x h1 a ha
    · rw [allocObj_length] at hx
      obtain rfl : x = h.objs.length := by omega
      rw [allocObj_body] at ha
      exact hb.arr a ha

theorem allocObj_val (h : Mem K) (sh : List ℕ) (b : Body) :
    (h.allocObj sh b).val h.objs.length = h.leafOf (h.leafOf sh b).shape b := by
  have : (h.allocObj sh b).shapeAttr h.objs.length = (h.leafOf sh b).shape := by
    show ((h.objs ++ [_]).getD _ _).shape = _
    simp
  unfold Mem.val
  rw [allocObj_body, this]
  rfl

/-- for all classes but `SparseTensor` the shape handed to the constructor plays no role -/
theorem leafOf_shape (h : Mem K) (sh : List ℕ) (b : Body) : h.leafOf (h.leafOf sh b).shape b = h.leafOf sh b := by
  cases b <;> rfl

/-! ### the statements -/

theorem bodyOk_dense {h : Mem K} {a : ℕ} (ha : a < h.arrs.length) : h.BodyOk (.dense a) :=
  ⟨fun l hl => (by cases hl), fun b hb => by cases hb; exact ha⟩

theorem bodyOk_sparse {h : Mem K} {ind : List (List ℕ)} {a : ℕ} (ha : a < h.arrs.length) : h.BodyOk (.sparse ind a) :=
  ⟨fun l hl => (by cases hl), fun b hb => by cases hb; exact ha⟩

theorem bodyOk_tt {h : Mem K} {l : ℕ} (hl : l < h.lists.length) : h.BodyOk (.tt l) :=
  ⟨fun b hb => by cases hb; exact hl, fun a ha => by cases ha⟩

theorem bodyOk_cp {h : Mem K} {l : ℕ} (hl : l < h.lists.length) : h.BodyOk (.cp l) :=
  ⟨fun b hb => by cases hb; exact hl, fun a ha => by cases ha⟩

theorem bodyOk_tucker {h : Mem K} {l a : ℕ} (hl : l < h.lists.length) (ha : a < h.arrs.length) :
    h.BodyOk (.tucker l a) :=
  ⟨fun b hb => by cases hb; exact hl, fun b hb => by cases hb; exact ha⟩

/-- allocate arrays, a list and an object -/
theorem alloc3 {h h1 : Mem K} (e1 : Ext h h1) (o1 : h1.Ok) (as : List ℕ) (has : ∀ a ∈ as, a < h1.arrs.length)
    (sh : List ℕ) {b : Body} (hb : (h1.allocList as).BodyOk b) :
    Ext h ((h1.allocList as).allocObj sh b) ∧ ((h1.allocList as).allocObj sh b).Ok :=
  ⟨(e1.trans (allocList_ext _ _)).trans (allocObj_ext _ _ _), allocObj_ok (allocList_ok o1 as has) sh hb⟩

theorem alloc2 {h h1 : Mem K} (e1 : Ext h h1) (o1 : h1.Ok) (sh : List ℕ) {b : Body} (hb : h1.BodyOk b) :
    Ext h (h1.allocObj sh b) ∧ (h1.allocObj sh b).Ok :=
  ⟨e1.trans (allocObj_ext _ _ _), allocObj_ok o1 sh hb⟩

theorem allocList_length (h : Mem K) (as : List ℕ) : (h.allocList as).lists.length = h.lists.length + 1 := by
  simp [allocList]

theorem step_create {h h' : Mem K} (hO : h.Ok) {s : MStmt K} (hc : Pure s) (hs : h.step s = .ok h') :
    Ext h h' ∧ h'.Ok := by
  cases s with
  | setitem => exact hc.elim
  | write => exact hc.elim
  | array A =>
    cases hs
    exact ⟨allocArrs_ext _ _, allocArrs_ok hO _⟩
  | list as =>
    simp only [step] at hs
    split_ifs at hs with h1
    cases hs
    exact ⟨allocList_ext _ _, allocList_ok hO _ h1⟩
  | dense a =>
    simp only [step] at hs
    split_ifs at hs with h1
    cases hs
    exact alloc2 (.refl _) hO _ (bodyOk_dense h1)
  | sparse sh ind a =>
    simp only [step] at hs
    split_ifs at hs with h1
    cases hs
    exact alloc2 (.refl _) hO _ (bodyOk_sparse h1)
  | tt l =>
    simp only [step] at hs
    split_ifs at hs with h1
    cases hs
    exact alloc2 (.refl _) hO _ (bodyOk_tt h1)
  | cp l =>
    simp only [step] at hs
    split_ifs at hs with h1 h2
    cases hs
    exact alloc2 (.refl _) hO _ (bodyOk_cp h1)
  | tucker l a =>
    simp only [step] at hs
    split_ifs at hs with h1
    cases hs
    exact alloc2 (.refl _) hO _ (bodyOk_tucker h1.1 h1.2)
  | gather x =>
    simp only [step] at hs
    split_ifs at hs with h1
    split at hs
    · cases hs
      exact ⟨⟨List.prefix_rfl, List.prefix_rfl, List.prefix_rfl, List.prefix_rfl⟩, ⟨hO.1, hO.2, hO.3, hO.4⟩⟩
    · cases hs
      exact ⟨.refl _, hO⟩
  | T x =>
    simp only [step] at hs
    split_ifs at hs with h1
    have hb := hO.body h1
    split at hs
    · rename_i a hx
      rw [hx] at hb
      cases hs
      refine alloc2 (allocViews_ext _ _) (allocViews_ok hO _ (by simpa using hb.arr a rfl)) _ (bodyOk_dense ?_)
      rw [allocViews_length]
      simp
    · rename_i ind a hx
      rw [hx] at hb
      cases hs
      exact alloc2 (.refl _) hO _ (bodyOk_sparse (hb.arr a rfl))
    · rename_i l hx
      rw [hx] at hb
      split_ifs at hs with h2
      cases hs
      refine alloc3 (allocViews_ext _ _) (allocViews_ok hO _ fun a ha => hO.lists l (hb.list l rfl) a (by simpa using ha))
        _ (fun a ha => ?_) _ (bodyOk_tt ?_)
      · rw [allocViews_length]
        simp only [List.mem_map, List.mem_range] at ha
        obtain ⟨k, hk, rfl⟩ := ha
        rw [List.length_reverse]
        omega
      · rw [allocList_length]
        exact Nat.lt_succ_self _
    · rename_i l hx
      rw [hx] at hb
      cases hs
      refine alloc3 (.refl _) hO _ (fun a ha => hO.lists l (hb.list l rfl) a (by simpa using ha)) _ (bodyOk_cp ?_)
      rw [allocList_length]
      exact Nat.lt_succ_self _
    · rename_i l a hx
      rw [hx] at hb
      split_ifs at hs with h2
      cases hs
      refine alloc3 (allocViews_ext _ _) (allocViews_ok hO _ (by simpa using hb.arr a rfl)) _ (fun a ha => ?_) _
        (bodyOk_tucker ?_ ?_)
      · have := hO.lists l (hb.list l rfl) a (by simpa using ha)
        rw [allocViews_length]
        omega
      · rw [allocList_length]
        exact Nat.lt_succ_self _
      · show _ < (allocViews _ _).arrs.length
        rw [allocViews_length]
        simp
  | mul x c =>
    simp only [step] at hs
    split_ifs at hs with h1
    have hb := hO.body h1
    split at hs
    · rename_i a hx
      cases hs
      refine alloc2 (allocArrs_ext _ _) (allocArrs_ok hO _) _ (bodyOk_dense ?_)
      rw [allocArrs_length]
      simp
    · rename_i ind a hx
      cases hs
      refine alloc2 (allocArrs_ext _ _) (allocArrs_ok hO _) _ (bodyOk_sparse ?_)
      rw [allocArrs_length]
      simp
    · rename_i l hx
      split at hs
      · cases hs
      · rename_i z hz
        cases hs
        refine alloc3 (allocArrs_ext _ _) (allocArrs_ok hO _) _ (fun a ha => ?_) _ (bodyOk_tt ?_)
        · rw [allocArrs_length, List.length_append, List.length_map, List.length_singleton]
          simp only [List.mem_append, List.mem_map, List.mem_singleton] at ha
          rcases ha with ⟨b, hb', rfl⟩ | rfl
          · have := List.idxOf_lt_length_iff.2 (List.mem_dedup.2 (List.mem_of_mem_dropLast hb'))
            omega
          · omega
        · rw [allocList_length]
          exact Nat.lt_succ_self _
    · rename_i l hx
      rw [hx] at hb
      split at hs
      · cases hs
      · rename_i a as hl
        cases hs
        refine alloc3 (allocArrs_ext _ _) (allocArrs_ok hO _) _ (fun b hb' => ?_) _ (bodyOk_cp ?_)
        · rw [allocArrs_length]
          rcases List.mem_cons.1 hb' with rfl | hb'
          · simp
          · have := hO.lists l (hb.list l rfl) b (by rw [hl]; exact List.mem_cons_of_mem _ hb')
            omega
        · rw [allocList_length]
          exact Nat.lt_succ_self _
    · rename_i l a hx
      rw [hx] at hb
      cases hs
      refine alloc2 (allocArrs_ext _ _) (allocArrs_ok hO _) _ (bodyOk_tucker (hb.list l rfl) ?_)
      rw [allocArrs_length]
      simp
  | add x y =>
    simp only [step] at hs
    split_ifs at hs with h1
    split at hs
    · cases hs
      refine alloc3 (allocArrs_ext _ _) (allocArrs_ok hO _) _ (fun a ha => ?_) _ (bodyOk_tt ?_)
      · rw [allocArrs_length]
        simp only [List.mem_map, List.mem_range] at ha
        obtain ⟨k, hk, rfl⟩ := ha
        omega
      · rw [allocList_length]
        exact Nat.lt_succ_self _
    · cases hs

theorem step_setitem {h h' : Mem K} {x i a : ℕ} (hs : h.step (.setitem x i a) = .ok h') :
    x < h.objs.length ∧ a < h.arrs.length ∧ ∃ l, (h.body x).list? = some l ∧ i < (h.list l).length ∧
      h' = { h with lists := h.lists.set l ((h.list l).set i a) } := by
  simp only [step] at hs
  split_ifs at hs with h1
  split at hs
  · rename_i l hl
    split_ifs at hs with h2
    cases hs
    exact ⟨h1.1, h1.2, l, hl, h2, rfl⟩
  · cases hs

theorem step_write {h h' : Mem K} {a : ℕ} {i : List ℕ} {v : K} (hs : h.step (.write a i v) = .ok h') :
    a < h.arrs.length ∧ InR (h.arr a).shape i ∧
      h' = { h with bufs := h.bufs.set (h.arrObj a).buf ((h.bufs.getD (h.arrObj a).buf (ND.zeros [])).setEntry
        (if (h.arrObj a).rev then i.reverse else i) v) } := by
  simp only [step] at hs
  split at hs
  · rename_i h1
    split at hs
    · rename_i h2
      exact ⟨h1, h2, (Except.ok.inj hs).symm⟩
    · cases hs
  · cases hs

theorem getD_set_self {α : Type*} {l : List α} {k : ℕ} (hk : k < l.length) (v d : α) : (l.set k v).getD k d = v := by
  rw [List.getD_eq_getElem _ _ (by simpa using hk)]
  simp

theorem getD_set_ne {α : Type*} {l : List α} {k j : ℕ} (h : j ≠ k) (v d : α) : (l.set k v).getD j d = l.getD j d := by
  simp [List.getD_eq_getElem?_getD, List.getElem?_set, Ne.symm h]

theorem step_ok {h h' : Mem K} (hO : h.Ok) {s : MStmt K} (hs : h.step s = .ok h') : h'.Ok := by
  by_cases hc : Pure s
  · exact (step_create hO hc hs).2
  cases s with
  | setitem x i a =>
    obtain ⟨h1, h2, l, h3, h4, rfl⟩ := step_setitem hs
    refine ⟨hO.bufs, fun m hm b hb => ?_, fun y hy m hm => ?_, hO.objs_arr⟩
    · by_cases e : m = l
      · subst e
        have hm : m < h.lists.length := by simpa using hm
        have hb : b ∈ (h.lists.set m ((h.list m).set i a)).getD m [] := hb
        rw [getD_set_self hm] at hb
        rcases List.mem_or_eq_of_mem_set hb with hb | rfl
        · exact hO.lists m hm b hb
        · exact h2
      · have hb : b ∈ (h.lists.set l ((h.list l).set i a)).getD m [] := hb
        rw [getD_set_ne e] at hb
        exact hO.lists m (by simpa using hm) b hb
    · have := hO.objs_list y hy m hm
      simpa using this
  | write a i v =>
    obtain ⟨h1, h2, rfl⟩ := step_write hs
    refine ⟨fun b hb => ?_, hO.lists, hO.objs_list, hO.objs_arr⟩
    have : (h.arrObj b).buf < h.bufs.length := hO.bufs b hb
    show (h.arrObj b).buf < (h.bufs.set _ _).length
    rwa [List.length_set]
  | _ => exact absurd trivial hc

/-- objects are never replaced, nothing disappears -/
structure Pre (h h' : Mem K) : Prop where
  arrs : h.arrs <+: h'.arrs
  objs : h.objs <+: h'.objs
  lists : h.lists.length ≤ h'.lists.length
  bufs : h.bufs.length ≤ h'.bufs.length

theorem step_pre {h h' : Mem K} (hO : h.Ok) {s : MStmt K} (hs : h.step s = .ok h') : Pre h h' := by
  by_cases hc : Pure s
  · have e := (step_create hO hc hs).1
    exact ⟨e.arrs, e.objs, e.lists.length_le, e.bufs.length_le⟩
  cases s with
  | setitem x i a =>
    obtain ⟨h1, h2, l, h3, h4, rfl⟩ := step_setitem hs
    exact ⟨List.prefix_rfl, List.prefix_rfl, by simp, le_rfl⟩
  | write a i v =>
    obtain ⟨h1, h2, rfl⟩ := step_write hs
    exact ⟨List.prefix_rfl, List.prefix_rfl, le_rfl, by simp⟩
  | _ => exact absurd trivial hc

theorem run_cons {h h' : Mem K} {s : MStmt K} {p : List (MStmt K)} (hr : h.run (s :: p) = .ok h') :
    ∃ h1, h.step s = .ok h1 ∧ h1.run p = .ok h' := by
  simp only [run] at hr
  split at hr
  · cases hr
  · rename_i h1 hs
    exact ⟨h1, hs, hr⟩

theorem run_ok : ∀ {p : List (MStmt K)} {h h' : Mem K}, h.Ok → h.run p = .ok h' → h'.Ok
  | [], h, h', hO, hr => by cases hr; exact hO
  | s :: p, h, h', hO, hr => by
    obtain ⟨h1, hs, hr⟩ := run_cons hr
    exact run_ok (step_ok hO hs) hr

theorem run_pre : ∀ {p : List (MStmt K)} {h h' : Mem K}, h.Ok → h.run p = .ok h' → Pre h h'
  | [], h, h', hO, hr => by cases hr; exact ⟨List.prefix_rfl, List.prefix_rfl, le_rfl, le_rfl⟩
  | s :: p, h, h', hO, hr => by
    obtain ⟨h1, hs, hr⟩ := run_cons hr
    have a := step_pre hO hs
    have b := run_pre (step_ok hO hs) hr
    exact ⟨a.1.trans b.1, a.2.trans b.2, a.3.trans b.3, a.4.trans b.4⟩

theorem Reachable.ok {h : Mem K} (hr : h.Reachable) : h.Ok := by
  obtain ⟨p, hp⟩ := hr
  exact run_ok empty_ok hp

theorem Pre.arrObj {h h' : Mem K} (e : Pre h h') {a : ℕ} (ha : a < h.arrs.length) : h'.arrObj a = h.arrObj a :=
  getD_prefix e.arrs ha _

theorem Pre.body {h h' : Mem K} (e : Pre h h') {x : ℕ} (hx : x < h.objs.length) : h'.body x = h.body x := by
  unfold Mem.body
  rw [getD_prefix e.objs hx]

theorem Pre.shapeAttr {h h' : Mem K} (e : Pre h h') {x : ℕ} (hx : x < h.objs.length) :
    h'.shapeAttr x = h.shapeAttr x := by
  unfold Mem.shapeAttr
  rw [getD_prefix e.objs hx]

/-- Lists and buffers that no mutation of the program is aimed at stay the same.  (Objects keep their lists and arrays
keep their buffers, so these can be looked up in the final state.) -/
theorem run_stable {Lp Bp : ℕ → Prop} : ∀ {p : List (MStmt K)} {h h' : Mem K}, h.Ok → h.run p = .ok h' →
    Mutates (fun y => ∀ l, (h'.body y).list? = some l → ¬ Lp l) (fun a => ¬ Bp (h'.arrObj a).buf) p →
    (∀ l < h.lists.length, Lp l → h'.list l = h.list l) ∧
      ∀ b < h.bufs.length, Bp b → h'.bufs.getD b (ND.zeros []) = h.bufs.getD b (ND.zeros [])
  | [], h, h', _, hr, _ => by cases hr; exact ⟨fun _ _ _ => rfl, fun _ _ _ => rfl⟩
  | s :: p, h, h', hO, hr, hm => by
    obtain ⟨h1, hs, hr⟩ := run_cons hr
    have hO1 := step_ok hO hs
    have e1 := step_pre hO hs
    have e2 := run_pre hO1 hr
    obtain ⟨r1, r2⟩ := run_stable (Lp := Lp) (Bp := Bp) hO1 hr fun t ht => hm t (List.mem_cons_of_mem _ ht)
    have hm0 := hm s List.mem_cons_self
    suffices key : (∀ l < h.lists.length, Lp l → h1.list l = h.list l) ∧
        ∀ b < h.bufs.length, Bp b → h1.bufs.getD b (ND.zeros []) = h.bufs.getD b (ND.zeros []) by
      exact ⟨fun l hl hp => (r1 l (hl.trans_le e1.lists) hp).trans (key.1 l hl hp),
        fun b hb hp => (r2 b (hb.trans_le e1.bufs) hp).trans (key.2 b hb hp)⟩
    by_cases hc : Pure s
    · have e := (step_create hO hc hs).1
      exact ⟨fun l hl _ => e.list hl, fun b hb _ => getD_prefix e.bufs hb _⟩
    cases s with
    | setitem x i a =>
      obtain ⟨k1, k2, m, k3, k4, rfl⟩ := step_setitem hs
      refine ⟨fun l hl hp => ?_, fun b hb _ => rfl⟩
      have : (h'.body x).list? = some m := by
        rw [e2.body k1]
        exact k3
      have hne : l ≠ m := by
        rintro rfl
        exact hm0 l this hp
      exact getD_set_ne hne _ _
    | write a i v =>
      obtain ⟨k1, k2, rfl⟩ := step_write hs
      refine ⟨fun l hl hp => rfl, fun b hb hp => ?_⟩
      have : (h'.arrObj a).buf = (h.arrObj a).buf := by
        rw [e2.arrObj k1]
        rfl
      have hne : b ≠ (h.arrObj a).buf := by
        rintro rfl
        exact hm0 (by rw [this]; exact hp)
      exact getD_set_ne hne _ _
    | _ => exact absurd trivial hc

end TTS.Mem
