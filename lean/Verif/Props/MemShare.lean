import Verif.Props.Mem
import Verif.Proofs.TensorSp

/-! # C76 (continued): what later mutations do; C77: cached dictionaries of sparse tensors -/

namespace TTS.Props

open TTS Mem

variable {K : Type*} [CommSemiring K]

/-! ### what does not change -/

/-- a tensor whose list and buffers are unchanged is unchanged -/
theorem val_stable {h h' : Mem K} (hO : h.Ok) (e : Pre h h') {x : ℕ} (hx : x < h.objs.length)
    (h1 : ∀ l, (h.body x).list? = some l → h'.list l = h.list l)
    (h2 : ∀ b < h.bufs.length, Uses h x b → h'.bufs.getD b (ND.zeros []) = h.bufs.getD b (ND.zeros [])) :
    h'.val x = h.val x := by
  have ha : ∀ a < h.arrs.length, Uses h x (h.arrObj a).buf → h'.arr a = h.arr a := fun a ha hu => by
    unfold Mem.arr
    rw [e.arrObj ha, h2 _ (hO.bufs a ha) hu]
  unfold Mem.val
  rw [e.body hx, e.shapeAttr hx]
  exact leafOf_congr h1 (fun l hl a hal => ha a (hO.lists l (hO.objs_list x hx l hl) a hal) (.inl ⟨l, hl, a, hal, rfl⟩))
    fun a hal => ha a (hO.objs_arr x hx a hal) (.inr ⟨a, hal, rfl⟩)

/-- **C76, frame.** Through a whole program, a tensor stays what it is unless an item of its own list of cores is
assigned (through this or another tensor object with the same list), or an array that shares memory with one of its
arrays is written to. -/
theorem C76_frame (h h' : Mem K) (hr : h.Reachable) (x : ℕ) (hx : x < h.objs.length) (p : List (MStmt K))
    (hp : h.run p = .ok h')
    (hm : Mutates (fun y => ¬ SameList h' y x) (fun a => ¬ Uses h x (h'.arrObj a).buf) p) : h'.val x = h.val x := by
  have hO := hr.ok
  have e := run_pre hO hp
  obtain ⟨r1, r2⟩ := run_stable (Lp := fun l => (h.body x).list? = some l) (Bp := Uses h x) hO hp fun s hs => by
    have := hm s hs
    cases s with
    | setitem y i a => exact fun l hl hl' => this ⟨l, hl, by rw [e.body hx]; exact hl'⟩
    | write a i v => exact this
    | _ => trivial
  exact val_stable hO e hx (fun l hl => r1 l (hO.objs_list x hx l hl) hl) r2

/-- **C76, `x[i] = a`** replaces core (or factor) `i` of `x` and of all tensor objects with the same list of cores, and
changes no other tensor.  No attribute `shape` changes. -/
theorem C76_setitem (h h' : Mem K) (hr : h.Reachable) (x i a : ℕ) (hs : h.step (.setitem x i a) = .ok h') :
    (∀ y < h.objs.length, ¬ SameList h y x → h'.val y = h.val y) ∧
      (∀ y < h.objs.length, SameList h y x → h'.val y = setCore i (h.arr a) (h.val y)) ∧
      SameList h x x ∧ ∀ y, h'.shapeAttr y = h.shapeAttr y := by
  have hO := hr.ok
  have e := step_pre hO hs
  obtain ⟨h1, h2, l, h3, h4, rfl⟩ := step_setitem hs
  have hl : l < h.lists.length := hO.objs_list x h1 l h3
  refine ⟨fun y hy hn => ?_, fun y hy ⟨m, k1, k2⟩ => ?_, ⟨l, h3, h3⟩, fun _ => rfl⟩
  · refine val_stable hO e hy (fun m hm => getD_set_ne ?_ _ _) fun b _ _ => rfl
    rintro rfl
    exact hn ⟨m, hm, h3⟩
  · obtain rfl : l = m := by rw [h3] at k2; injection k2
    have e1 : (h.lists.set l ((h.list l).set i a)).getD l [] = (h.list l).set i a := getD_set_self hl _ _
    unfold Mem.val
    show Mem.leafOf _ (h.shapeAttr y) (h.body y) = setCore i (h.arr a) (h.leafOf (h.shapeAttr y) (h.body y))
    generalize h.body y = b at k1
    have e2 : (((h.lists.set l ((h.list l).set i a)).getD l []).map h.arr) = ((h.list l).map h.arr).set i (h.arr a) := by
      rw [e1, List.map_set]
    cases b with
    | dense a => cases k1
    | sparse ind a => cases k1
    | tt m => cases k1; exact congrArg (fun cs => Leaf.tt ⟨cs⟩) e2
    | cp m => cases k1; exact congrArg (fun cs => Leaf.cp ⟨cs⟩) e2
    | tucker m a' => cases k1; exact congrArg (fun cs => Leaf.tucker ⟨cs, h.arr a'⟩) e2

/-- **C76, `x[i] = a`** is possible exactly for the existing cores. -/
theorem C76_setitem_ok (h : Mem K) (x i a : ℕ) :
    (∃ h', h.step (.setitem x i a) = .ok h') ↔ x < h.objs.length ∧ a < h.arrs.length ∧ i < numCores (h.val x) := by
  unfold Mem.val
  constructor
  · rintro ⟨h', hs⟩
    obtain ⟨h1, h2, l, h3, h4, -⟩ := step_setitem hs
    refine ⟨h1, h2, ?_⟩
    generalize h.body x = b at h3
    cases b with
    | dense a => cases h3
    | sparse ind a => cases h3
    | tt m => cases h3; simpa [leafOf, numCores] using h4
    | cp m => cases h3; simpa [leafOf, numCores] using h4
    | tucker m a' => cases h3; simpa [leafOf, numCores] using h4
  · rintro ⟨h1, h2, h3⟩
    simp only [step, if_pos (And.intro h1 h2)]
    generalize h.body x = b at h3
    cases b with
    | dense a => simp [leafOf, numCores] at h3
    | sparse ind a => simp [leafOf, numCores] at h3
    | tt m => exact ⟨_, if_pos (by simpa [leafOf, numCores] using h3)⟩
    | cp m => exact ⟨_, if_pos (by simpa [leafOf, numCores] using h3)⟩
    | tucker m a' => exact ⟨_, if_pos (by simpa [leafOf, numCores] using h3)⟩

theorem flip_setEntry (A : ND K) (i : List ℕ) (v : K) : Mem.flip (A.setEntry i v) = (Mem.flip A).setEntry i.reverse v := by
  refine ND.ext' (by rw [flip_shape, ND.setEntry_shape, ND.setEntry_shape, flip_shape]) fun j hj => ?_
  rw [flip_shape, ND.setEntry_shape] at hj
  have hj' : InR A.shape j.reverse := by simpa using hj.reverse
  rw [flip_get]
  unfold ND.setEntry
  rw [ND.ofFn_get hj', ND.ofFn_get (by rw [flip_shape]; exact hj), flip_get]
  congr 1
  exact propext ⟨fun h => by rw [← h, List.reverse_reverse], fun h => by rw [h, List.reverse_reverse]⟩

/-- **C76, `a[i] = v`** changes entry `i` of the array, the same entry of all arrays that share its memory (for a view
with reversed axes: at the reversed position), and nothing else; it changes no tensor that does not look at this
memory. -/
theorem C76_write (h h' : Mem K) (hr : h.Reachable) (a : ℕ) (i : List ℕ) (v : K) (hs : h.step (.write a i v) = .ok h') :
    (∀ b < h.arrs.length, h'.arr b =
      if (h.arrObj b).buf = (h.arrObj a).buf then
        (h.arr b).setEntry (if (h.arrObj b).rev = (h.arrObj a).rev then i else i.reverse) v
      else h.arr b) ∧
    (∀ l, h'.list l = h.list l) ∧ ∀ y < h.objs.length, ¬ Uses h y (h.arrObj a).buf → h'.val y = h.val y := by
  have hO := hr.ok
  have e := step_pre hO hs
  obtain ⟨h1, h2, rfl⟩ := step_write hs
  refine ⟨fun b hb => ?_, fun _ => rfl, fun y hy hn => ?_⟩
  · by_cases hbuf : (h.arrObj b).buf = (h.arrObj a).buf
    · rw [if_pos hbuf]
      unfold Mem.arr
      show (let A := (h.bufs.set _ _).getD (h.arrObj b).buf _; if (h.arrObj b).rev then Mem.flip A else A) = _
      rw [hbuf, getD_set_self (hO.bufs a h1)]
      cases (h.arrObj a).rev <;> cases (h.arrObj b).rev <;> simp [flip_setEntry]
    · rw [if_neg hbuf]
      unfold Mem.arr
      show (let A := (h.bufs.set _ _).getD (h.arrObj b).buf _; if (h.arrObj b).rev then Mem.flip A else A) = _
      rw [getD_set_ne hbuf]
  · refine val_stable hO e hy (fun m hm => rfl) fun b _ hu => getD_set_ne ?_ _ _
    rintro rfl
    exact hn hu

/-! ### copies -/

theorem newList_mem {h : Mem K} {As : List (ND K)} {as : List ℕ} {sh : List ℕ} {b : Body} {a : ℕ} :
    a ∈ (((h.allocArrs As).allocList as).allocObj sh b).list h.lists.length ↔ a ∈ as :=
  iff_of_eq (congrArg (a ∈ ·) (allocList_last (h.allocArrs As) as))

/-- what is new after a copying statement -/
theorem copies_fresh {h h' : Mem K} (hO : h.Ok) {s : MStmt K} (hc : Copies h s) (hs : h.step s = .ok h') :
    h'.objs.length = h.objs.length + 1 ∧
      (∀ a, h.arrs.length ≤ a → a < h'.arrs.length → h.bufs.length ≤ (h'.arrObj a).buf) ∧
      (∀ l, (h'.body h.objs.length).list? = some l → h.lists.length ≤ l ∧ ∀ a ∈ h'.list l, h.arrs.length ≤ a) ∧
      ∀ a, (h'.body h.objs.length).arr? = some a → h.arrs.length ≤ a := by
  have fresh : ∀ As : List (ND K), ∀ a, h.arrs.length ≤ a → a < (h.allocArrs As).arrs.length →
      h.bufs.length ≤ ((h.allocArrs As).arrObj a).buf := by
    intro As a h1 h2
    rw [allocArrs_length] at h2
    obtain ⟨k, rfl⟩ := Nat.exists_eq_add_of_le h1
    rw [allocArrs_obj h As (by omega)]
    exact Nat.le_add_right _ _
  cases s with
  | mul x c =>
    simp only [step] at hs
    simp only [Copies] at hc
    split_ifs at hs with h1
    generalize h.body x = b at hs hc
    cases b with
    | dense a =>
      cases hs
      refine ⟨allocObj_length _ _ _, fresh _, ?_⟩
      have e := allocObj_body (h.allocArrs [(h.arr a).smul c]) [] (.dense h.arrs.length)
      rw [show (h.allocArrs [(h.arr a).smul c]).objs.length = h.objs.length from rfl] at e
      rw [e]
      exact ⟨fun l hl => by (cases hl), fun a ha => by cases ha; exact le_rfl⟩
    | sparse ind a =>
      cases hs
      refine ⟨allocObj_length _ _ _, fresh _, ?_⟩
      have e := allocObj_body (h.allocArrs [(h.arr a).smul c]) (h.shapeAttr x) (.sparse ind h.arrs.length)
      rw [show (h.allocArrs [(h.arr a).smul c]).objs.length = h.objs.length from rfl] at e
      rw [e]
      exact ⟨fun l hl => by (cases hl), fun a ha => by cases ha; exact le_rfl⟩
    | tt l =>
      simp only at hs
      split at hs
      · cases hs
      cases hs
      refine ⟨allocObj_length _ _ _, fresh _, ?_⟩
      refine ⟨fun m hm => ?_, fun a ha => ?_⟩
      · have hm := (congrArg Body.list? (allocObj_body (Mem.allocList _ _) [] (.tt h.lists.length))).symm.trans hm
        cases hm
        refine ⟨le_rfl, fun a ha => ?_⟩
        rw [newList_mem] at ha
        simp only [List.mem_append, List.mem_map, List.mem_singleton] at ha
        rcases ha with ⟨b, -, rfl⟩ | rfl <;> exact Nat.le_add_right _ _
      · have ha := (congrArg Body.arr? (allocObj_body (Mem.allocList _ _) [] (.tt h.lists.length))).symm.trans ha
        cases ha
    | cp l => exact hc.elim
    | tucker l a => exact hc.elim
  | add x y =>
    simp only [step] at hs
    split_ifs at hs with h1
    split at hs
    · rename_i X Y hX hY
      cases hs
      refine ⟨allocObj_length _ _ _, fresh _, ?_⟩
      refine ⟨fun m hm => ?_, fun a ha => ?_⟩
      · have hm := (congrArg Body.list? (allocObj_body (Mem.allocList _ _) [] (.tt h.lists.length))).symm.trans hm
        cases hm
        refine ⟨le_rfl, fun a ha => ?_⟩
        rw [newList_mem] at ha
        simp only [List.mem_map] at ha
        obtain ⟨k, -, rfl⟩ := ha
        exact Nat.le_add_right _ _
      · have ha := (congrArg Body.arr? (allocObj_body (Mem.allocList _ _) [] (.tt h.lists.length))).symm.trans ha
        cases ha
    · cases hs
  | _ => exact hc.elim

/-- copying statements are pure -/
theorem Copies.pure {h : Mem K} {s : MStmt K} (hc : Copies h s) : Mem.Pure s := by
  cases s <;> first | trivial | exact hc.elim

/-- **C76, copies.** `x * c` for dense, sparse and tensor-train tensors, and `x.add(y)`, make a tensor `z` that shares no
memory with the tensors and arrays that existed before: whatever is later done to these (item assignments to the old
tensor objects, writes to the old arrays) does not change `z`, and whatever is done to `z` and its arrays does not
change them. -/
theorem C76_copy (h h1 h2 : Mem K) (hr : h.Reachable) (s : MStmt K) (hc : Copies h s) (hs : h.step s = .ok h1)
    (p : List (MStmt K)) (hp : h1.run p = .ok h2) :
    (Mutates (· < h.objs.length) (· < h.arrs.length) p → h2.val h.objs.length = h1.val h.objs.length) ∧
      (Mutates (· = h.objs.length) (fun a => h.arrs.length ≤ a ∧ a < h1.arrs.length) p →
        ∀ x < h.objs.length, h2.val x = h.val x) := by
  have hO := hr.ok
  obtain ⟨e1, hO1⟩ := step_create hO (Copies.pure hc) hs
  obtain ⟨f1, f2, f3, f4⟩ := copies_fresh hO hc hs
  have e2 := run_pre hO1 hp
  have hz : h.objs.length < h1.objs.length := by omega
  refine ⟨fun hm => ?_, fun hm x hx => ?_⟩
  · obtain ⟨r1, r2⟩ := run_stable (Lp := fun l => h.lists.length ≤ l) (Bp := fun b => h.bufs.length ≤ b) hO1 hp
      fun t ht => by
        have := hm t ht
        cases t with
        | setitem y i a =>
          have hy : y < h.objs.length := this
          intro l hl
          rw [e2.body (hy.trans hz), e1.body hy] at hl
          have := hO.objs_list y hy l hl
          omega
        | write a i v =>
          have ha : a < h.arrs.length := this
          show ¬ h.bufs.length ≤ (h2.arrObj a).buf
          rw [e2.arrObj (ha.trans_le e1.arrs.length_le), e1.arrObj ha]
          have := hO.bufs a ha
          omega
        | _ => trivial
    refine val_stable hO1 e2 hz (fun l hl => r1 l (hO1.objs_list _ hz l hl) (f3 l hl).1) fun b hb hu => r2 b hb ?_
    rcases hu with ⟨l, hl, a, ha, rfl⟩ | ⟨a, ha, rfl⟩
    · exact f2 a ((f3 l hl).2 a ha) (hO1.lists l (hO1.objs_list _ hz l hl) a ha)
    · exact f2 a (f4 a ha) (hO1.objs_arr _ hz a ha)
  · obtain ⟨r1, r2⟩ := run_stable (Lp := fun l => l < h.lists.length) (Bp := fun b => b < h.bufs.length) hO1 hp
      fun t ht => by
        have := hm t ht
        cases t with
        | setitem y i a =>
          obtain rfl : y = h.objs.length := this
          intro l hl
          rw [e2.body hz] at hl
          have := (f3 l hl).1
          omega
        | write a i v =>
          have ha : h.arrs.length ≤ a ∧ a < h1.arrs.length := this
          show ¬ (h2.arrObj a).buf < h.bufs.length
          rw [e2.arrObj ha.2]
          have := f2 a ha.1 ha.2
          omega
        | _ => trivial
    have hx1 : x < h1.objs.length := hx.trans hz
    rw [← e1.val hO hx]
    refine val_stable hO1 e2 hx1 (fun l hl => ?_) fun b hb hu => r2 b hb ?_
    · rw [e1.body hx] at hl
      exact r1 l (hO1.objs_list _ hx1 l (by rw [e1.body hx]; exact hl)) (hO.objs_list x hx l hl)
    · rcases hu with ⟨l, hl, a, ha, rfl⟩ | ⟨a, ha, rfl⟩
      · rw [e1.body hx] at hl
        have hl' := hO.objs_list x hx l hl
        rw [e1.list hl'] at ha
        have ha' := hO.lists l hl' a ha
        rw [e1.arrObj ha']
        exact hO.bufs a ha'
      · rw [e1.body hx] at ha
        have ha' := hO.objs_arr x hx a ha
        rw [e1.arrObj ha']
        exact hO.bufs a ha'

/-! ### views -/

/-- arrays keep their shape -/
theorem step_buf_shape {h h' : Mem K} (hO : h.Ok) {s : MStmt K} (hs : h.step s = .ok h') {b : ℕ} (hb : b < h.bufs.length) :
    (h'.bufs.getD b (ND.zeros [])).shape = (h.bufs.getD b (ND.zeros [])).shape := by
  by_cases hc : Mem.Pure s
  · rw [getD_prefix (step_create hO hc hs).1.bufs hb]
  cases s with
  | setitem x i a =>
    obtain ⟨-, -, l, -, -, rfl⟩ := step_setitem hs
    rfl
  | write a i v =>
    obtain ⟨h1, -, rfl⟩ := step_write hs
    show ((h.bufs.set _ _).getD b _).shape = _
    by_cases e : b = (h.arrObj a).buf
    · subst e
      rw [getD_set_self hb, ND.setEntry_shape]
    · rw [getD_set_ne e]
  | _ => exact absurd trivial hc

theorem run_buf_shape : ∀ {p : List (MStmt K)} {h h' : Mem K}, h.Ok → h.run p = .ok h' → ∀ {b : ℕ}, b < h.bufs.length →
    (h'.bufs.getD b (ND.zeros [])).shape = (h.bufs.getD b (ND.zeros [])).shape
  | [], h, h', _, hr, b, _ => by cases hr; rfl
  | s :: p, h, h', hO, hr, b, hb => by
    obtain ⟨h1, hs, hr⟩ := run_cons hr
    exact (run_buf_shape (step_ok hO hs) hr (hb.trans_le (step_pre hO hs).bufs)).trans (step_buf_shape hO hs hb)

theorem arr_shape_of {h h' : Mem K} (hO : h.Ok) (e : Pre h h')
    (hb : ∀ b < h.bufs.length, (h'.bufs.getD b (ND.zeros [])).shape = (h.bufs.getD b (ND.zeros [])).shape) {a : ℕ}
    (ha : a < h.arrs.length) : (h'.arr a).shape = (h.arr a).shape := by
  unfold Mem.arr
  rw [e.arrObj ha]
  have := hb _ (hO.bufs a ha)
  cases (h.arrObj a).rev
  · exact this
  · show (Mem.flip _).shape = (Mem.flip _).shape
    rw [flip_shape, flip_shape, this]

/-- **C76, transposes are views.** After `z = x.T`, whatever is written into arrays by a later program, `z` stays the
transpose of `x`, for all classes, as long as no core of `x` or `z` is *replaced* (by an item assignment).  For dense and
sparse tensors, which have no item assignment, this is so for every program. -/
theorem C76_view (h h1 h2 : Mem K) (hr : h.Reachable) (x : ℕ) (hs : h.step (.T x) = .ok h1) (p : List (MStmt K))
    (hp : h1.run p = .ok h2)
    (hm : Mutates (fun y => ¬ SameList h2 y x ∧ ¬ SameList h2 y h.objs.length) (fun _ => True) p) :
    h2.val h.objs.length = (h2.val x).T := by
  have hO := hr.ok
  have hO1 := step_ok hO hs
  obtain ⟨hx, hlen, ht⟩ := step_T hO (reachable_lenOk hr) hs
  have e := run_pre hO1 hp
  have hz : h.objs.length < h1.objs.length := by omega
  have hx1 : x < h1.objs.length := by omega
  obtain ⟨r1, -⟩ := run_stable
    (Lp := fun l => (h1.body x).list? = some l ∨ (h1.body h.objs.length).list? = some l) (Bp := fun _ => False) hO1 hp
    fun s hs => by
      have := hm s hs
      cases s with
      | setitem y i a =>
        rintro l hl (hl' | hl')
        · exact this.1 ⟨l, hl, by rw [e.body hx1]; exact hl'⟩
        · exact this.2 ⟨l, hl, by rw [e.body hz]; exact hl'⟩
      | write a i v => exact fun hf => hf
      | _ => trivial
  have rx : ∀ l, (h1.body x).list? = some l → h2.list l = h1.list l :=
    fun l hl => r1 l (hO1.objs_list x hx1 l hl) (.inl hl)
  have rz : ∀ l, (h1.body h.objs.length).list? = some l → h2.list l = h1.list l :=
    fun l hl => r1 l (hO1.objs_list _ hz l hl) (.inr hl)
  have sh : ∀ a < h1.arrs.length, (h2.arr a).ndim = (h1.arr a).ndim := fun a ha =>
    congrArg List.length (arr_shape_of hO1 e (fun b hb => run_buf_shape hO1 hp hb) ha)
  have vw : ∀ a < h1.arrs.length, ∀ b < h1.arrs.length, IsView h1 a b → IsView h2 a b := fun a ha b hb hv => by
    unfold IsView
    rw [e.arrObj ha, e.arrObj hb]
    exact hv
  refine transposed_val ?_
  have bx := hO1.body hx1
  have bz := hO1.body hz
  rw [e.body hx1, e.body hz]
  generalize h1.body x = b at ht rx bx
  generalize h1.body h.objs.length = b' at ht rz bz
  cases b with
  | dense a =>
    cases b' with
    | dense a' => exact vw a (bx.arr a rfl) a' (bz.arr a' rfl) ht
    | _ => exact ht.elim
  | sparse ind a =>
    cases b' with
    | sparse ind' a' =>
      refine ⟨ht.1, ht.2.1, ?_⟩
      rw [e.shapeAttr hx1, e.shapeAttr hz]
      exact ht.2.2
    | _ => exact ht.elim
  | tt l =>
    cases b' with
    | tt m =>
      have hl := hO1.lists l (bx.list l rfl)
      have hm := hO1.lists m (bz.list m rfl)
      show (∀ a ∈ h2.list l, (h2.arr a).ndim = 3) ∧ List.Forall₂ (IsView h2) (h2.list l).reverse (h2.list m)
      rw [rx l rfl, rz m rfl]
      refine ⟨fun a ha => by rw [sh a (hl a ha)]; exact ht.1 a ha, ?_⟩
      have h3 := ht.2
      rw [List.forall₂_iff_get] at h3 ⊢
      exact ⟨h3.1, fun k k1 k2 => vw _ (hl _ (List.mem_reverse.1 (List.get_mem _ _))) _ (hm _ (List.get_mem _ _))
        (h3.2 k k1 k2)⟩
    | _ => exact ht.elim
  | cp l =>
    cases b' with
    | cp m =>
      show h2.list m = (h2.list l).reverse
      rw [rx l rfl, rz m rfl]
      exact ht
    | _ => exact ht.elim
  | tucker l a =>
    cases b' with
    | tucker m a' =>
      show (h2.arr a).ndim = (h2.list l).length ∧ h2.list m = (h2.list l).reverse ∧ IsView h2 a a'
      rw [rx l rfl, rz m rfl, sh a (bx.arr a rfl)]
      exact ⟨ht.1, ht.2.1, vw a (bx.arr a rfl) a' (bz.arr a' rfl) ht.2.2⟩
    | _ => exact ht.elim

/-- **C76, one list, two tensors.** Tensor trains made from the same list object stay equal, whatever happens. -/
theorem C76_same_list (h h1 h2 h3 : Mem K) (hr : h.Reachable) (l : ℕ) (hs1 : h.step (.tt l) = .ok h1)
    (hs2 : h1.step (.tt l) = .ok h2) (p : List (MStmt K)) (hp : h2.run p = .ok h3) :
    h3.val h.objs.length = h3.val (h.objs.length + 1) := by
  have hO := hr.ok
  have hO1 := step_ok hO hs1
  have hO2 := step_ok hO1 hs2
  have e := run_pre hO2 hp
  have e2 := step_pre hO1 hs2
  simp only [step] at hs1 hs2
  split_ifs at hs1 with k1
  split_ifs at hs2 with k2
  cases hs1
  have hl : (h.allocObj [] (.tt l)).objs.length = h.objs.length + 1 := allocObj_length _ _ _
  have b1 : h3.body h.objs.length = .tt l := by
    rw [e.body (by have := e2.objs.length_le; omega), e2.body (by omega), allocObj_body]
  have b2 : h3.body (h.objs.length + 1) = .tt l := by
    cases hs2
    rw [e.body (by rw [allocObj_length]; omega), ← hl, allocObj_body]
  unfold Mem.val
  rw [b1, b2]
  rfl

/-- **C76, scaled Tucker tensors.** The factors of `x * c` and of `x` are the same, whatever happens later. -/
theorem C76_tucker_shared (h h1 h2 : Mem K) (hr : h.Reachable) (x : ℕ) (c : K) (X : Tucker K) (hx : h.val x = .tucker X)
    (hs : h.step (.mul x c) = .ok h1) (p : List (MStmt K)) (hp : h1.run p = .ok h2) :
    ∃ Y Z, h2.val x = .tucker Y ∧ h2.val h.objs.length = .tucker Z ∧ Z.factors = Y.factors := by
  have hO := hr.ok
  have hO1 := step_ok hO hs
  have e := run_pre hO1 hp
  have e1 := step_pre hO hs
  simp only [step] at hs
  split_ifs at hs with k1
  unfold Mem.val at hx
  generalize hb : h.body x = b at hs hx
  cases b with
  | tucker l a =>
    cases hs
    have b1 : h2.body x = .tucker l a := by
      rw [e.body (by have := e1.objs.length_le; omega), e1.body k1, hb]
    have b2 : h2.body h.objs.length = .tucker l h.arrs.length := by
      rw [e.body (by rw [allocObj_length]; exact Nat.lt_succ_self _)]
      exact allocObj_body (h.allocArrs _) [] (.tucker l h.arrs.length)
    refine ⟨⟨(h2.list l).map h2.arr, h2.arr a⟩, ⟨(h2.list l).map h2.arr, h2.arr h.arrs.length⟩, ?_, ?_, rfl⟩
    · unfold Mem.val; rw [b1]; rfl
    · unfold Mem.val; rw [b2]; rfl
  | _ => cases hx

end TTS.Props
