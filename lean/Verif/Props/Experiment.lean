import Verif.Spec.Experiment
import Mathlib.Logic.Encodable.Basic
import Mathlib.Data.Rat.Encodable

/-!
# C78: experiments are run once, over all processes and crashes

`Suite`, `CsvOk` and `Same` are in `Spec/Experiment.lean`.
-/

namespace TTS.Props

open TTS

theorem lookup_dictSet (row : List (String × Cell)) (kv : String × Cell) (k : String) :
    (dictSet row kv).lookup k = if k = kv.1 then some kv.2 else row.lookup k := by
  obtain ⟨k0, v0⟩ := kv
  unfold dictSet
  split
  · rename_i h
    induction row with
    | nil => simp at h
    | cons p row ih =>
      obtain ⟨a, b⟩ := p
      by_cases h1 : a = k0
      · subst h1
        by_cases h2 : k = a
        · subst h2
          simp
        · simp only [List.map_cons, if_true, List.lookup_cons, beq_eq_false_iff_ne.2 h2, if_neg h2]
          by_cases h3 : a ∈ row.map Prod.fst
          · have := ih h3
            simp only [if_neg h2] at this
            exact this
          · have : row.map (fun p => if p.1 = a then (a, v0) else p) = row := by
              conv_rhs => rw [← List.map_id row]
              refine List.map_congr_left fun p hp => ?_
              rw [if_neg fun e => h3 (List.mem_map.2 ⟨p, hp, e⟩)]
              rfl
            rw [this]
      · have h3 : k0 ∈ row.map Prod.fst := by
          simp only [List.map_cons, List.mem_cons] at h
          exact h.resolve_left fun e => h1 e.symm
        have := ih h3
        simp only [List.map_cons, if_neg h1, List.lookup_cons, this]
        by_cases h2 : k = k0
        · subst h2
          rw [beq_eq_false_iff_ne.2 (Ne.symm h1)]
        · simp only [if_neg h2]
  · rename_i h
    rw [List.lookup_append]
    by_cases h2 : k = k0
    · subst h2
      have : row.lookup k = none := by
        rw [List.lookup_eq_none_iff]
        intro p hp
        exact bne_iff_ne.2 fun e => h (List.mem_map.2 ⟨p, hp, e.symm⟩)
      rw [this]
      simp
    · simp [h2, List.lookup_cons, beq_eq_false_iff_ne.2 h2]

theorem keys_dictSet (row : List (String × Cell)) (kv : String × Cell) (k : String) :
    k ∈ (dictSet row kv).map Prod.fst ↔ k ∈ row.map Prod.fst ∨ k = kv.1 := by
  unfold dictSet
  split
  · rename_i h
    have : (row.map fun p => if p.1 = kv.1 then kv else p).map Prod.fst = row.map Prod.fst := by
      rw [List.map_map]
      refine List.map_congr_left fun p _ => ?_
      show (if p.1 = kv.1 then kv else p).1 = p.1
      split
      · rename_i e; exact e.symm
      · rfl
    rw [this]
    exact ⟨.inl, fun h' => h'.elim id fun e => e ▸ h⟩
  · rw [List.map_append, List.mem_append, List.map_singleton, List.mem_singleton]

/-- the row that is stored -/
def fullRow (a : Exper × List (String × Cell)) : List (String × Cell) := a.2.foldl dictSet a.1.row

theorem lookup_fold : ∀ (res row : List (String × Cell)), (res.map Prod.fst).Nodup → ∀ k,
    (res.foldl dictSet row).lookup k = (res.lookup k).or (row.lookup k)
  | [], row, _, k => by simp
  | p :: res, row, hn, k => by
    obtain ⟨a, b⟩ := p
    rw [List.map_cons, List.nodup_cons] at hn
    rw [List.foldl_cons, lookup_fold res _ hn.2, lookup_dictSet, List.lookup_cons]
    by_cases h : k = a
    · subst h
      have : res.lookup k = none := by
        rw [List.lookup_eq_none_iff]
        intro q hq
        exact bne_iff_ne.2 fun e => hn.1 (List.mem_map.2 ⟨q, hq, e.symm⟩)
      simp [this]
    · simp [h, beq_eq_false_iff_ne.2 h]

theorem keys_fold (k : String) : ∀ (res row : List (String × Cell)),
    k ∈ (res.foldl dictSet row).map Prod.fst ↔ k ∈ row.map Prod.fst ∨ k ∈ res.map Prod.fst
  | [], row => by simp
  | p :: res, row => by
    rw [List.foldl_cons, keys_fold k res, keys_dictSet, List.map_cons, List.mem_cons, or_assoc]

theorem lookup_row (c : Exper) (k : String) :
    c.row.lookup k = if k = "name" then some (.str c.name) else (c.kwargs.lookup k).map Arg.shown := by
  unfold Exper.row
  rw [lookup_dictSet]
  split
  · rfl
  · generalize c.kwargs = l
    induction l with
    | nil => rfl
    | cons p l ih =>
      rw [List.map_cons, List.lookup_cons, List.lookup_cons, ih]
      cases k == p.1 <;> rfl

theorem keys_row (c : Exper) (k : String) : k ∈ c.row.map Prod.fst ↔ k ∈ c.kwargs.map Prod.fst ∨ k = "name" := by
  unfold Exper.row
  rw [keys_dictSet, List.map_map]
  rfl

theorem lookup_mem {l : List (String × Cell)} {k : String} {v : Cell} (h : l.lookup k = some v) : (k, v) ∈ l := by
  induction l with
  | nil => simp at h
  | cons p l ih =>
    obtain ⟨a, b⟩ := p
    rw [List.lookup_cons] at h
    by_cases e : k = a
    · subst e
      simp only [beq_self_eq_true] at h
      cases h
      exact List.mem_cons_self
    · simp only [beq_eq_false_iff_ne.2 e] at h
      exact List.mem_cons_of_mem _ (ih h)

theorem lookup_of_mem {α : Type*} {l : List (String × α)} (hn : (l.map Prod.fst).Nodup) {p : String × α} (hp : p ∈ l) :
    l.lookup p.1 = some p.2 := by
  induction l with
  | nil => cases hp
  | cons q l ih =>
    rw [List.map_cons, List.nodup_cons] at hn
    rw [List.lookup_cons]
    rcases List.mem_cons.1 hp with rfl | hp
    · simp
    · have : p.1 ≠ q.1 := fun e => hn.1 (e ▸ List.mem_map.2 ⟨p, hp, rfl⟩)
      simp only [beq_eq_false_iff_ne.2 this]
      exact ih hn.2 hp

theorem lookup_isSome {α : Type*} {l : List (String × α)} {k : String} (h : k ∈ l.map Prod.fst) :
    ∃ v, l.lookup k = some v := by
  induction l with
  | nil => simp at h
  | cons q l ih =>
    rw [List.lookup_cons]
    by_cases e : k = q.1
    · subst e
      exact ⟨q.2, by simp⟩
    · simp only [beq_eq_false_iff_ne.2 e]
      exact ih (by simpa [e] using h)

theorem lookup_not_mem {α : Type*} {l : List (String × α)} {k : String} (h : k ∉ l.map Prod.fst) : l.lookup k = none := by
  rw [List.lookup_eq_none_iff]
  intro q hq
  exact bne_iff_ne.2 fun e => h (List.mem_map.2 ⟨q, hq, e.symm⟩)

theorem Cell.eqv_iff {a b : Cell} : a.eqv b = true ↔ a = b ∧ b ≠ .nan := by
  cases a <;> cases b <;> simp [Cell.eqv]

section
variable {csv : Csv} {num : String → Prop} {keys : String → List String}

/-- an executed experiment of the suite -/
def RunOk (csv : Csv) (num : String → Prop) (keys : String → List String) (a : Exper × List (String × Cell)) : Prop :=
  Suite csv num keys a.1 ∧ a.1.result = some a.2

theorem full_name {a : Exper × List (String × Cell)} (ha : RunOk csv num keys a) :
    (fullRow a).lookup "name" = some (.str a.1.name) := by
  obtain ⟨h1, h2⟩ := ha.1.results _ ha.2
  unfold fullRow
  rw [lookup_fold _ _ h1, lookup_not_mem, lookup_row]
  · rfl
  · intro hm
    obtain ⟨p, hp, e⟩ := List.mem_map.1 hm
    exact (h2 p hp).1 e

theorem full_param {a : Exper × List (String × Cell)} (ha : RunOk csv num keys a) {k : String} (hk : k ∈ keys a.1.name) :
    (fullRow a).lookup k = (a.1.kwargs.lookup k).map Arg.shown := by
  obtain ⟨h1, h2⟩ := ha.1.results _ ha.2
  have hkn : k ≠ "name" := by
    rintro rfl
    exact ha.1.no_name ((ha.1.params _).2 hk)
  unfold fullRow
  rw [lookup_fold _ _ h1, lookup_not_mem, lookup_row, if_neg hkn]
  · rfl
  · intro hm
    obtain ⟨p, hp, e⟩ := List.mem_map.1 hm
    exact (h2 p hp).2.1 (e ▸ hk)

theorem full_res {a : Exper × List (String × Cell)} (ha : RunOk csv num keys a) {p : String × Cell} (hp : p ∈ a.2) :
    (fullRow a).lookup p.1 = some p.2 := by
  obtain ⟨h1, -⟩ := ha.1.results _ ha.2
  unfold fullRow
  rw [lookup_fold _ _ h1, lookup_of_mem h1 hp]
  rfl

/-- the stored values fit their columns -/
theorem full_fits {a : Exper × List (String × Cell)} (ha : RunOk csv num keys a) (k : String) :
    Fits csv num k (((fullRow a).lookup k).getD .nan) := by
  obtain ⟨h1, h2⟩ := ha.1.results _ ha.2
  unfold fullRow
  rw [lookup_fold _ _ h1, lookup_row]
  cases h : a.2.lookup k with
  | some v => exact (h2 _ (lookup_mem h)).2.2.1
  | none =>
    show Fits csv num k ((if k = "name" then some (Cell.str a.1.name) else _).getD .nan)
    split
    · rename_i e
      subst e
      exact ha.1.name
    · by_cases hm : k ∈ a.1.kwargs.map Prod.fst
      · obtain ⟨p, hp, rfl⟩ := List.mem_map.1 hm
        rw [lookup_of_mem ha.1.nodup hp]
        exact ha.1.args p hp
      · rw [lookup_not_mem hm]
        trivial

/-- the table is that of the experiments that were run -/
structure FrameOk (csv : Csv) (F : Frame) (runs : List (Exper × List (String × Cell))) : Prop where
  rows : List.Forall₂ (fun a r => ∀ k, (∀ cols, k ≠ csv.index cols) → r k = ((fullRow a).lookup k).getD .nan) runs F.rows
  cols : ∀ a ∈ runs, ∀ k ∈ (fullRow a).map Prod.fst, k ∈ F.cols

theorem readCell_fits (hc : CsvOk csv) {k : String} {col : List Cell} (hf : ∀ v ∈ col, Fits csv num k v) {v : Cell}
    (hv : v ∈ col) : csv.readCell (col.map csv.text) (csv.text v) = v := by
  unfold Csv.readCell
  cases v with
  | nan =>
    show (if csv.na "" then Cell.nan else _) = _
    rw [hc.na_empty]
    rfl
  | num q =>
    have hk : num k := hf _ hv
    rw [if_neg (by show ¬ csv.na (csv.fmt q) = true; rw [hc.na_fmt]; decide), if_pos]
    · show (match csv.parse (csv.fmt q) with | some q => Cell.num q | none => .nan) = _
      rw [hc.parse_fmt]
    · rw [List.all_eq_true]
      intro u hu
      obtain ⟨w, hw, rfl⟩ := List.mem_map.1 hu
      have := hf w hw
      cases w with
      | nan => simp [Csv.text, hc.na_empty]
      | num q' => simp [Csv.text, hc.parse_fmt]
      | str s => exact absurd hk this.1
  | str s =>
    obtain ⟨h1, h2, h3⟩ := hf _ hv
    rw [if_neg (by show ¬ csv.na s = true; rw [h2]; decide), if_neg]
    · rfl
    · intro hall
      rw [List.all_eq_true] at hall
      have := hall (csv.text (.str s)) (List.mem_map_of_mem hv)
      simp [Csv.text, h2, h3] at this

theorem reload_ok (hc : CsvOk csv) {F : Frame} {runs : List (Exper × List (String × Cell))}
    (hr : ∀ a ∈ runs, RunOk csv num keys a) (h : FrameOk csv F runs) : FrameOk csv (csv.reload F) runs := by
  refine ⟨?_, fun a ha k hk => List.mem_cons_of_mem _ (h.cols a ha k hk)⟩
  have h0 := h.rows
  rw [List.forall₂_iff_get] at h0 ⊢
  obtain ⟨hlen, h0⟩ := h0
  refine ⟨by simpa [Csv.reload] using hlen, fun i h1 h2 k hk => ?_⟩
  have h3 : i < F.rows.length := by rw [← hlen]; exact h1
  have e : (csv.reload F).rows.get ⟨i, h2⟩ k
      = csv.readCell (F.rows.map fun r => csv.text (r k)) (csv.text (F.rows[i] k)) := by
    simp only [Csv.reload, List.get_eq_getElem, List.getElem_map, List.getElem_zipIdx, if_neg (hk _)]
  rw [e, ← h0 i h1 h3 k hk]
  have e2 : (F.rows.map fun r => csv.text (r k)) = (F.rows.map fun r => r k).map csv.text := by
    rw [List.map_map]; rfl
  rw [e2]
  refine readCell_fits (num := num) (k := k) hc (fun v hv => ?_) (List.mem_map.2 ⟨_, List.getElem_mem _, rfl⟩)
  obtain ⟨r, hr', rfl⟩ := List.mem_map.1 hv
  obtain ⟨j, hj, rfl⟩ := List.getElem_of_mem hr'
  have hj' : j < runs.length := by rw [hlen]; exact hj
  have := h0 j hj' hj k hk
  simp only [List.get_eq_getElem] at this
  rw [this]
  exact full_fits (hr _ (List.getElem_mem _)) k

/-- `check_experiment_done` finds exactly the experiments that were run -/
theorem done_iff {F : Frame} {runs : List (Exper × List (String × Cell))} (hr : ∀ a ∈ runs, RunOk csv num keys a)
    (h : FrameOk csv F runs) {c : Exper} (hs : Suite csv num keys c) :
    F.done c.row = true ↔ ∃ a ∈ runs, a.1.Same c := by
  have nodup : (c.row.map Prod.fst).Nodup := by
    unfold Exper.row dictSet
    rw [List.map_map, if_neg (by exact hs.no_name), List.map_append, List.map_map]
    refine List.nodup_append.2 ⟨hs.nodup, by simp, ?_⟩
    intro a ha b hb e
    simp only [List.map_singleton, List.mem_singleton] at hb
    subst hb e
    exact hs.no_name ha
  have row_val : ∀ p ∈ c.row, p = ("name", Cell.str c.name) ∨
      (p.1 ∈ keys c.name ∧ (c.kwargs.lookup p.1).map Arg.shown = some p.2) := by
    intro p hp
    have h1 := lookup_of_mem nodup hp
    rw [lookup_row] at h1
    split at h1
    · rename_i e
      injection h1 with h1
      exact .inl (Prod.ext e h1.symm)
    · rename_i e
      have hm := (keys_row c p.1).1 (List.mem_map.2 ⟨p, hp, rfl⟩)
      exact .inr ⟨(hs.params _).1 (hm.resolve_right e), h1⟩
  have noidx : ∀ k, k = "name" ∨ k ∈ keys c.name → ∀ cols, k ≠ csv.index cols := by
    rintro k (rfl | hk) cols e
    · exact (hs.index cols).1 e.symm
    · exact (hs.index cols).2 (e ▸ hk)
  have h0 := h.rows
  rw [List.forall₂_iff_get] at h0
  obtain ⟨hlen, h0⟩ := h0
  unfold Frame.done
  rw [Bool.and_eq_true, List.any_eq_true]
  constructor
  · rintro ⟨-, r, hr', hall⟩
    rw [List.all_eq_true] at hall
    obtain ⟨j, hj, rfl⟩ := List.getElem_of_mem hr'
    have hj' : j < runs.length := by rw [hlen]; exact hj
    have ha := hr _ (List.getElem_mem hj')
    have hrow := h0 j hj' hj
    simp only [List.get_eq_getElem] at hrow
    have hname : runs[j].1.name = c.name := by
      have hm : ("name", Cell.str c.name) ∈ c.row := lookup_mem (by rw [lookup_row]; rfl)
      have := (Cell.eqv_iff.1 (hall _ hm)).1
      simp only at this
      rw [hrow "name" (noidx _ (.inl rfl)), full_name ha] at this
      simpa using this
    refine ⟨_, List.getElem_mem hj', hname, fun k => ?_⟩
    by_cases hk : k ∈ keys c.name
    · obtain ⟨v, hv⟩ := lookup_isSome ((hs.params k).2 hk)
      have hkn : k ≠ "name" := by
        rintro rfl
        exact hs.no_name ((hs.params _).2 hk)
      have hm : (k, v.shown) ∈ c.row := lookup_mem (by rw [lookup_row, if_neg hkn, hv]; rfl)
      have := (Cell.eqv_iff.1 (hall _ hm)).1
      simp only at this
      rw [hrow k (noidx k (.inr hk)), full_param ha (by rw [hname]; exact hk)] at this
      obtain ⟨w, hw⟩ := lookup_isSome ((ha.1.params k).2 (by rw [hname]; exact hk))
      rw [hw] at this ⊢
      rw [hv]
      exact congrArg some this
    · rw [lookup_not_mem fun hm => hk ((hs.params k).1 hm), lookup_not_mem fun hm => hk (hname ▸ (ha.1.params k).1 hm)]
  · rintro ⟨a, ha, hname, hsame⟩
    obtain ⟨j, hj, rfl⟩ := List.getElem_of_mem ha
    have hj' : j < F.rows.length := by rw [← hlen]; exact hj
    have hra := hr _ ha
    have hrow := h0 j hj hj'
    simp only [List.get_eq_getElem] at hrow
    refine ⟨?_, F.rows[j], List.getElem_mem _, ?_⟩
    · rw [List.all_eq_true]
      intro p hp
      refine decide_eq_true (h.cols _ ha p.1 ?_)
      unfold fullRow
      rw [keys_fold, keys_row]
      refine .inl ?_
      rcases row_val p hp with rfl | ⟨hk, -⟩
      · exact .inr rfl
      · exact .inl ((hra.1.params _).2 (hname ▸ hk))
    · rw [List.all_eq_true]
      intro p hp
      rw [Cell.eqv_iff]
      rcases row_val p hp with rfl | ⟨hk, hv⟩
      · refine ⟨?_, by simp⟩
        rw [hrow "name" (noidx _ (.inl rfl)), full_name hra, hname]
        rfl
      · have hne : p.2 ≠ .nan := by
          obtain ⟨v, hv'⟩ := lookup_isSome ((hs.params p.1).2 hk)
          rw [hv'] at hv
          injection hv with hv
          rw [← hv]
          cases v <;> simp [Arg.shown]
        refine ⟨?_, hne⟩
        rw [hrow p.1 (noidx _ (.inr hk)), full_param hra (by rw [hname]; exact hk), hsame, hv]
        rfl

theorem append_ok {F : Frame} {runs : List (Exper × List (String × Cell))} (h : FrameOk csv F runs)
    (a : Exper × List (String × Cell)) : FrameOk csv (F.append (fullRow a)) (runs ++ [a]) := by
  refine ⟨List.rel_append h.rows (.cons (fun k _ => rfl) .nil), fun b hb k hk => ?_⟩
  show k ∈ F.cols ++ _
  rw [List.mem_append]
  by_cases hk' : k ∈ F.cols
  · exact .inl hk'
  · refine .inr (List.mem_filter.2 ⟨?_, by simpa using hk'⟩)
    rcases List.mem_append.1 hb with hb | hb
    · exact absurd (h.cols b hb k hk) hk'
    · rw [List.mem_singleton] at hb
      subst hb
      exact hk

/-- the invariant -/
structure SessOk (csv : Csv) (num : String → Prop) (keys : String → List String) (evs : List ExpEvent) (s : Session) :
    Prop where
  data : FrameOk csv s.data s.runs
  file : ∀ F, s.file = some F → FrameOk csv F s.runs
  nofile : s.file = none → s.runs = []
  runs : ∀ a ∈ s.runs, RunOk csv num keys a ∧ .call a.1 ∈ evs
  once : s.runs.Pairwise fun a b => ¬ a.1.Same b.1
  all : ∀ c, .call c ∈ evs → c.result ≠ none → ∃ a ∈ s.runs, a.1.Same c

theorem Exper.Same.refl (c : Exper) : c.Same c := ⟨rfl, fun _ => rfl⟩

theorem open_ok (hc : CsvOk csv) {evs : List ExpEvent} {s : Session} (h : SessOk csv num keys evs s) :
    SessOk csv num keys (evs ++ [.start]) (s.open csv) := by
  have key : ∀ data, FrameOk csv data s.runs → SessOk csv num keys (evs ++ [.start]) { s with data := data } :=
    fun data hd => ⟨hd, h.file, h.nofile, fun a ha => ⟨(h.runs a ha).1, List.mem_append_left _ (h.runs a ha).2⟩, h.once,
      fun c hm hn => h.all c (by simpa using hm) hn⟩
  unfold Session.open
  split
  · rename_i F hF
    exact key _ (reload_ok hc (fun a ha => (h.runs a ha).1) (h.file F hF))
  · rename_i hF
    refine key _ ?_
    rw [h.nofile hF]
    exact ⟨.nil, fun a ha => by cases ha⟩

theorem call_ok {evs : List ExpEvent} {s : Session} (h : SessOk csv num keys evs s) {c : Exper}
    (hs : Suite csv num keys c) : SessOk csv num keys (evs ++ [.call c]) (s.doExperiment c) := by
  have hr : ∀ a ∈ s.runs, RunOk csv num keys a := fun a ha => (h.runs a ha).1
  have mono : ∀ a ∈ s.runs, RunOk csv num keys a ∧ .call a.1 ∈ evs ++ [.call c] :=
    fun a ha => ⟨hr a ha, List.mem_append_left _ (h.runs a ha).2⟩
  unfold Session.doExperiment
  split
  · rename_i hd
    refine ⟨h.data, h.file, h.nofile, mono, h.once, fun d hd' hn => ?_⟩
    rcases List.mem_append.1 hd' with h1 | h1
    · exact h.all d h1 hn
    · rw [List.mem_singleton] at h1
      injection h1 with h1
      subst h1
      exact (done_iff hr h.data hs).1 hd
  · rename_i hd
    split
    · rename_i hres
      refine ⟨h.data, h.file, h.nofile, mono, h.once, fun d hd' hn => ?_⟩
      rcases List.mem_append.1 hd' with h1 | h1
      · exact h.all d h1 hn
      · rw [List.mem_singleton] at h1
        injection h1 with h1
        subst h1
        exact absurd hres hn
    · rename_i res hres
      have hf := append_ok h.data (c, res)
      refine ⟨hf, fun F hF => ?_, fun hn => (by cases hn), fun a ha => ?_, ?_, fun d hd' hn => ?_⟩
      · injection hF with hF
        subst hF
        exact hf
      · rcases List.mem_append.1 ha with h1 | h1
        · exact mono a h1
        · rw [List.mem_singleton] at h1
          subst h1
          exact ⟨⟨hs, hres⟩, by simp⟩
      · refine List.pairwise_append.2 ⟨h.once, List.pairwise_singleton _ _, fun a ha b hb hsame => ?_⟩
        rw [List.mem_singleton] at hb
        subst hb
        exact hd ((done_iff hr h.data hs).2 ⟨a, ha, hsame⟩)
      · rcases List.mem_append.1 hd' with h1 | h1
        · obtain ⟨a, ha, hs'⟩ := h.all d h1 hn
          exact ⟨a, List.mem_append_left _ ha, hs'⟩
        · rw [List.mem_singleton] at h1
          injection h1 with h1
          subst h1
          exact ⟨_, List.mem_append_right _ (List.mem_singleton.2 rfl), Exper.Same.refl _⟩

theorem history_ok (hc : CsvOk csv) (evs : List ExpEvent) (hs : ∀ c, .call c ∈ evs → Suite csv num keys c) :
    SessOk csv num keys evs (Session.history csv evs) := by
  induction evs using List.reverseRecOn with
  | nil =>
    exact ⟨⟨.nil, fun a ha => by cases ha⟩, fun F hF => (by cases hF), fun _ => rfl, fun a ha => (by cases ha),
      .nil, fun c hm => by cases hm⟩
  | append_singleton evs e ih =>
    have h := ih fun c hm => hs c (List.mem_append_left _ hm)
    unfold Session.history at h ⊢
    rw [List.foldl_append]
    cases e with
    | start => exact open_ok hc h
    | call c => exact call_ok h (hs c (by simp))

end

/-- **C78.** Through every history of processes that start, make calls of `do_experiment`, and end or are killed (not
while saving): each experiment is completed at most once; only experiments that were asked for are run; each one whose
function returned is in the table, with its name, its parameters and its results, and the table has no other rows.  (The
history may end with the start of a process, so this is also what the next process loads from the file.) -/
theorem C78 (csv : Csv) (hc : CsvOk csv) (num : String → Prop) (keys : String → List String) (evs : List ExpEvent)
    (hs : ∀ c, .call c ∈ evs → Suite csv num keys c) :
    ((Session.history csv evs).runs.Pairwise fun a b => ¬ a.1.Same b.1) ∧
    (∀ a ∈ (Session.history csv evs).runs, .call a.1 ∈ evs ∧ a.1.result = some a.2) ∧
    (∀ c, .call c ∈ evs → c.result ≠ none → ∃ a ∈ (Session.history csv evs).runs, a.1.Same c) ∧
    List.Forall₂ (fun a r => r "name" = .str a.1.name ∧ (∀ p ∈ a.1.kwargs, r p.1 = p.2.shown) ∧ ∀ p ∈ a.2, r p.1 = p.2)
      (Session.history csv evs).runs (Session.history csv evs).data.rows := by
  have h := history_ok hc evs hs
  refine ⟨h.once, fun a ha => ⟨(h.runs a ha).2, (h.runs a ha).1.2⟩, h.all, ?_⟩
  have h0 := h.data.rows
  rw [List.forall₂_iff_get] at h0 ⊢
  refine ⟨h0.1, fun i h1 h2 => ?_⟩
  have hr := h0.2 i h1 h2
  have ha := (h.runs _ (List.get_mem _ ⟨i, h1⟩)).1
  refine ⟨?_, fun p hp => ?_, fun p hp => ?_⟩
  · rw [hr "name" fun cols e => (ha.1.index cols).1 e.symm, full_name ha]
    rfl
  · have hk := (ha.1.params p.1).1 (List.mem_map.2 ⟨p, hp, rfl⟩)
    rw [hr p.1 fun cols e => (ha.1.index cols).2 (e ▸ hk), full_param ha hk, lookup_of_mem ha.1.nodup hp]
    rfl
  · rw [hr p.1 ((ha.1.results _ ha.2).2 p hp).2.2.2, full_res ha hp]
    rfl

/-- **C78, nothing is lost.** What has been completed stays recorded, and is not run again. -/
theorem C78_grows (csv : Csv) (evs more : List ExpEvent) :
    (Session.history csv evs).runs <+: (Session.history csv (evs ++ more)).runs := by
  unfold Session.history
  rw [List.foldl_append]
  generalize List.foldl (Session.step csv) _ evs = s
  induction more generalizing s with
  | nil => exact List.prefix_rfl
  | cons e more ih =>
    refine List.IsPrefix.trans ?_ (ih _)
    cases e with
    | start =>
      show s.runs <+: (s.open csv).runs
      unfold Session.open
      split
      · exact List.prefix_rfl
      · exact List.prefix_rfl
    | call c =>
      show s.runs <+: (s.doExperiment c).runs
      unfold Session.doExperiment
      split
      · exact List.prefix_rfl
      · split
        · exact List.prefix_rfl
        · exact List.prefix_append _ _

/-! ### where it fails -/

/-- an experiment with one parameter -/
def exp1 (v : Arg) : Exper := ⟨"a", [("rank", v)], some [("error", .num 1)]⟩

/-- **C78, counterexample.** Experiments with the same name but fewer parameters are taken for done. -/
theorem C78_subset (csv : Csv) :
    (Session.history csv [.call ⟨"a", [("rank", .num 5), ("run", .num 0)], some [("error", .num 1)]⟩,
      .call (exp1 (.num 5))]).runs.length = 1 := by
  rfl

/-- **C78, counterexample.** A parameter that is a number in some experiments and another object in others: after the
file has been loaded the column holds texts, and an experiment is run again. -/
theorem C78_mixed (csv : Csv) (hc : CsvOk csv) (h1 : csv.parse "(3, 4)" = none) (h2 : csv.na "(3, 4)" = false)
    (h3 : ∀ cols, csv.index cols ≠ "rank") :
    (Session.history csv [.call (exp1 (.num 5)), .call (exp1 (.other "(3, 4)")), .start,
      .call (exp1 (.num 5))]).runs.length = 3 := by
  have e1 : (Session.history csv [.call (exp1 (.num 5)), .call (exp1 (.other "(3, 4)"))]).runs.length = 2 := by rfl
  set s := Session.history csv [.call (exp1 (.num 5)), .call (exp1 (.other "(3, 4)"))] with hs
  have e2 : Session.history csv [.call (exp1 (.num 5)), .call (exp1 (.other "(3, 4)")), .start, .call (exp1 (.num 5))]
      = (s.open csv).doExperiment (exp1 (.num 5)) := rfl
  rw [e2]
  obtain ⟨F, hF, hrows⟩ : ∃ F, s.file = some F ∧ F.rows.map (fun r => r "rank") = [.num 5, .str "(3, 4)"] := ⟨_, rfl, rfl⟩
  have e3 : s.open csv = { s with data := csv.reload F } := by unfold Session.open; rw [hF]; rfl
  have e4 : ∀ r ∈ (csv.reload F).rows, ∃ t, r "rank" = .str t := by
    intro r hr
    simp only [Csv.reload, List.mem_map] at hr
    obtain ⟨⟨r0, k⟩, hm, rfl⟩ := hr
    have hr0 : r0 ∈ F.rows := by
      have := List.mem_zipIdx hm
      simp only [Nat.sub_zero] at this
      rw [this.2.2]
      exact List.getElem_mem _
    have hc0 : (F.rows.map fun r => csv.text (r "rank")) = [csv.fmt 5, "(3, 4)"] := by
      have : (F.rows.map fun r => csv.text (r "rank")) = (F.rows.map fun r => r "rank").map csv.text := by
        rw [List.map_map]; rfl
      rw [this, hrows]
      rfl
    have hv : r0 "rank" = .num 5 ∨ r0 "rank" = .str "(3, 4)" := by
      have : r0 "rank" ∈ F.rows.map fun r => r "rank" := List.mem_map.2 ⟨r0, hr0, rfl⟩
      rw [hrows] at this
      simpa using this
    simp only [if_neg (h3 F.cols).symm, hc0]
    unfold Csv.readCell
    rcases hv with hv | hv <;> rw [hv] <;> simp [Csv.text, hc.na_fmt, h1, h2]
  have e5 : (s.open csv).data.done (exp1 (.num 5)).row = false := by
    rw [e3]
    unfold Frame.done
    rw [Bool.and_eq_false_iff]
    right
    rw [List.any_eq_false]
    intro r hr hall
    obtain ⟨t, ht⟩ := e4 r hr
    rw [List.all_eq_true] at hall
    have := hall ("rank", .num 5) (by decide)
    simp [ht, Cell.eqv] at this
  unfold Session.doExperiment
  rw [e5, e3]
  show (s.runs ++ [_]).length = 3
  rw [List.length_append, e1]
  rfl

/-- **C78, counterexample.** A parameter whose text is read as a missing value (`None` in pandas 2): the experiment is
run again by every process. -/
theorem C78_missing (csv : Csv) (h2 : csv.na "None" = true) (h3 : ∀ cols, csv.index cols ≠ "rank") :
    (Session.history csv [.call (exp1 (.other "None")), .start, .call (exp1 (.other "None"))]).runs.length = 2 := by
  set s := Session.history csv [.call (exp1 (.other "None"))] with hs
  have e2 : Session.history csv [.call (exp1 (.other "None")), .start, .call (exp1 (.other "None"))]
      = (s.open csv).doExperiment (exp1 (.other "None")) := rfl
  rw [e2]
  obtain ⟨F, hF, hrows⟩ : ∃ F, s.file = some F ∧ F.rows.map (fun r => r "rank") = [.str "None"] := ⟨_, rfl, rfl⟩
  have e3 : s.open csv = { s with data := csv.reload F } := by unfold Session.open; rw [hF]; rfl
  have e4 : ∀ r ∈ (csv.reload F).rows, r "rank" = .nan := by
    intro r hr
    simp only [Csv.reload, List.mem_map] at hr
    obtain ⟨⟨r0, k⟩, hm, rfl⟩ := hr
    have hr0 : r0 ∈ F.rows := by
      have := List.mem_zipIdx hm
      simp only [Nat.sub_zero] at this
      rw [this.2.2]
      exact List.getElem_mem _
    have hv : r0 "rank" = .str "None" := by
      have : r0 "rank" ∈ F.rows.map fun r => r "rank" := List.mem_map.2 ⟨r0, hr0, rfl⟩
      rw [hrows] at this
      simpa using this
    simp only [if_neg (h3 F.cols).symm, hv]
    unfold Csv.readCell
    simp [Csv.text, h2]
  have e5 : (s.open csv).data.done (exp1 (.other "None")).row = false := by
    rw [e3]
    unfold Frame.done
    rw [Bool.and_eq_false_iff]
    right
    rw [List.any_eq_false]
    intro r hr hall
    rw [List.all_eq_true] at hall
    have := hall ("rank", .str "None") (by decide)
    simp [e4 r hr, Cell.eqv] at this
  unfold Session.doExperiment
  rw [e5, e3]
  rfl

/-- **C78, counterexample.** Two processes at the same time: `p` and `q` start with the same file; `p` completes an
experiment, then `q` completes another one; what `p` has saved is overwritten. -/
theorem C78_concurrent (csv : Csv) :
    let s := Session.history csv []
    let p := s.doExperiment (exp1 (.num 5))
    let q := ({ s with file := p.file } : Session).doExperiment (exp1 (.num 6))
    p.file.map (fun F => F.rows.map fun r => r "rank") = some [.num 5] ∧
      q.file.map (fun F => F.rows.map fun r => r "rank") = some [.num 6] := ⟨rfl, rfl⟩

/-! ### the assumptions can be met -/

/-- unary numbers -/
def unary (q : ℚ) : String := String.ofList (List.replicate (Encodable.encode q + 1) '1')

theorem unary_inj {q r : ℚ} (h : unary q = unary r) : q = r := by
  have := congrArg (fun s : String => s.toList.length) h
  simp only [unary, String.toList_ofList, List.length_replicate, Nat.add_right_cancel_iff] at this
  exact Encodable.encode_injective this

open Classical in
noncomputable def csv0 : Csv where
  fmt := unary
  parse s := if h : ∃ q, unary q = s then some h.choose else none
  na s := decide (s = "")
  index cols := String.ofList (List.replicate ((cols.map fun c => c.toList.length).sum + 1) 'U')

open Classical in
theorem csv0_ok : CsvOk csv0 where
  parse_fmt q := by
    have h : ∃ r, unary r = unary q := ⟨q, rfl⟩
    show (if h : ∃ r, unary r = unary q then some h.choose else none) = some q
    rw [dif_pos h]
    exact congrArg some (unary_inj h.choose_spec)
  na_fmt q := by
    refine decide_eq_false fun e => ?_
    have := congrArg (fun s : String => s.toList.length) e
    simp [csv0, unary] at this
  na_empty := by simp [csv0]
  index_new cols hm := by
    have h1 : ∀ l : List String, ∀ c ∈ l, c.toList.length ≤ (l.map fun c => c.toList.length).sum := by
      intro l c hc
      exact List.single_le_sum (fun _ _ => Nat.zero_le _) _ (List.mem_map.2 ⟨c, hc, rfl⟩)
    have := h1 cols _ hm
    simp [csv0] at this

open Classical in
theorem csv0_text {s : String} {c : Char} {l : List Char} (hs : s.toList = c :: l) (hc : c ≠ '1') :
    csv0.na s = false ∧ csv0.parse s = none := by
  refine ⟨decide_eq_false fun e => by rw [e] at hs; simp at hs, ?_⟩
  show (if h : ∃ r, unary r = s then some h.choose else none) = none
  rw [dif_neg]
  rintro ⟨q, rfl⟩
  rw [unary, String.toList_ofList, List.replicate_succ] at hs
  injection hs with hs
  exact hc hs.symm

theorem csv0_index (cols : List String) {s : String} {c : Char} {l : List Char} (hs : s.toList = c :: l) (hc : c ≠ 'U') :
    csv0.index cols ≠ s := by
  rintro rfl
  simp only [csv0, String.toList_ofList, List.replicate_succ] at hs
  injection hs with hs
  exact hc hs.symm

/-- a history with two parameters of different kind, a crash in the middle of an experiment, and a restart -/
example : ∀ c, .call c ∈ ([.call ⟨"sketch", [("rank", .num 5), ("drm", .named "SparseSignDRM")], some [("error", .num 1)]⟩,
      .call ⟨"sketch", [("rank", .num 6), ("drm", .named "SparseSignDRM")], none⟩, .start,
      .call ⟨"sketch", [("drm", .named "SparseSignDRM"), ("rank", .num 6)], some [("error", .nan)]⟩] : List ExpEvent) →
    Suite csv0 (fun k => k = "rank" ∨ k = "error") (fun _ => ["rank", "drm"]) c := by
  intro c hc
  simp only [List.mem_cons, ExpEvent.call.injEq, List.not_mem_nil, or_false, reduceCtorEq, false_or] at hc
  have t1 := csv0_text (s := "sketch") (c := 's') (l := "ketch".toList) rfl (by decide)
  have t2 := csv0_text (s := "SparseSignDRM") (c := 'S') (l := "parseSignDRM".toList) rfl (by decide)
  have i1 : ∀ cols, csv0.index cols ≠ "name" := fun cols =>
    csv0_index cols (c := 'n') (l := "ame".toList) rfl (by decide)
  have i2 : ∀ cols, csv0.index cols ≠ "rank" := fun cols =>
    csv0_index cols (c := 'r') (l := "ank".toList) rfl (by decide)
  have i3 : ∀ cols, csv0.index cols ≠ "drm" := fun cols =>
    csv0_index cols (c := 'd') (l := "rm".toList) rfl (by decide)
  have i4 : ∀ cols, "error" ≠ csv0.index cols := fun cols =>
    (csv0_index cols (c := 'e') (l := "rror".toList) rfl (by decide)).symm
  rcases hc with rfl | rfl | rfl <;>
  · refine ⟨by decide, by decide, fun k => by simp [or_comm], by simp [Fits, t1], by simp [Fits, Arg.shown, t2], ?_, ?_⟩
    · simp [Fits, i4]
    · simp [i1, i2, i3]

end TTS.Props
