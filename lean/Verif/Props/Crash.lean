import Verif.Spec.Crash
import Verif.Props.Experiment

/-!
# C87: kills while the table is being saved
-/

namespace TTS.Props

open TTS

section
variable {csv : Csv} {num : String → Prop} {keys : String → List String}

theorem fullRow_none {a : Exper × List (String × Cell)} {k : String} (h : k ∉ (fullRow a).map Prod.fst) :
    (fullRow a).lookup k = none := lookup_not_mem h

/-- reading the first `k` lines of a saved table -/
theorem read_take_ok (hc : CsvOk csv) {F : Frame} {runs : List (Exper × List (String × Cell))}
    (hr : ∀ a ∈ runs, RunOk csv num keys a) (h : FrameOk csv F runs) (n : ℕ) :
    FrameOk csv (csv.read ⟨F.cols, (csv.write F).lines.take n⟩) (runs.take n) := by
  refine ⟨?_, fun a ha k hk => List.mem_cons_of_mem _ (h.cols a (List.mem_of_mem_take ha) k hk)⟩
  have h0 := h.rows
  rw [List.forall₂_iff_get] at h0 ⊢
  obtain ⟨hlen, h0⟩ := h0
  refine ⟨by simp [Csv.read, Csv.write, hlen], fun i h1 h2 k hk => ?_⟩
  have h1' : i < n ∧ i < runs.length := by simpa using h1
  have h3 : i < F.rows.length := by rw [← hlen]; exact h1'.2
  -- the cell of a line in the column `k`
  have cell : ∀ j (hj : j < F.rows.length), (csv.fmt j :: F.cols.map fun c => csv.text (F.rows[j] c)).getD
      ((csv.index F.cols :: F.cols).idxOf k) "" = csv.text (F.rows[j] k) := by
    intro j hj
    rw [List.idxOf_cons_ne _ (Ne.symm (hk _)), List.getD_cons_succ]
    by_cases hm : k ∈ F.cols
    · have hlt := List.idxOf_lt_length_of_mem hm
      rw [List.getD_eq_getElem _ _ (by simpa using hlt), List.getElem_map, List.getElem_idxOf hlt]
    · rw [List.getD_eq_default _ _ (by rw [List.length_map, List.idxOf_eq_length hm])]
      have hj' : j < runs.length := by rw [hlen]; exact hj
      have := h0 j hj' hj k hk
      simp only [List.get_eq_getElem] at this
      rw [this, fullRow_none fun hm' => hm (h.cols _ (List.getElem_mem hj') k hm')]
      rfl
  have e : (csv.read ⟨F.cols, (csv.write F).lines.take n⟩).rows.get ⟨i, h2⟩ k
      = csv.readCell (((F.rows.map fun r => r k).take n).map csv.text) (csv.text (F.rows[i] k)) := by
    simp only [Csv.read, Csv.write, List.get_eq_getElem, List.getElem_map, List.getElem_take, List.getElem_zipIdx,
      Nat.zero_add]
    rw [cell i h3]
    congr 1
    refine List.ext_getElem (by simp) fun j g1 g2 => ?_
    have g3 : j < F.rows.length := by
      have : j < min n F.rows.length := by simpa using g2
      omega
    simp only [List.getElem_map, List.getElem_take, List.getElem_zipIdx, Nat.zero_add]
    exact cell j g3
  rw [e]
  have e0 : (runs.take n).get ⟨i, h1⟩ = runs[i]'h1'.2 := by simp
  have e1 := h0 i h1'.2 h3 k hk
  simp only [List.get_eq_getElem] at e1
  rw [e0, ← e1]
  refine readCell_fits (num := num) (k := k) hc (fun v hv => ?_) ?_
  · obtain ⟨r, hr', rfl⟩ := List.mem_map.1 (List.mem_of_mem_take hv)
    obtain ⟨j, hj, rfl⟩ := List.getElem_of_mem hr'
    have hj' : j < runs.length := by rw [hlen]; exact hj
    have := h0 j hj' hj k hk
    simp only [List.get_eq_getElem] at this
    rw [this]
    exact full_fits (hr _ (List.getElem_mem _)) k
  · rw [List.mem_iff_getElem]
    exact ⟨i, by simp; omega, by simp⟩

/-- the file holds the lines of `kept` -/
def FileOk (csv : Csv) (f : CsvFile) (kept : List (Exper × List (String × Cell))) : Prop :=
  match f with
  | .absent => kept = []
  | .blank => kept = []
  | .sheet S => FrameOk csv (csv.read S) kept

theorem write_ok (hc : CsvOk csv) {F : Frame} {runs : List (Exper × List (String × Cell))}
    (hr : ∀ a ∈ runs, RunOk csv num keys a) (h : FrameOk csv F runs) : FileOk csv (.sheet (csv.write F)) runs := by
  have := read_take_ok hc hr h (runs.length)
  rw [List.take_length, List.take_of_length_le] at this
  · exact this
  · have := h.rows.length_eq
    simp [Csv.write, this]

theorem torn_ok (hc : CsvOk csv) {F : Frame} {runs : List (Exper × List (String × Cell))}
    (hr : ∀ a ∈ runs, RunOk csv num keys a) (h : FrameOk csv F runs) (t : Cut) (ht : t.AtLine) :
    FileOk csv ((csv.write F).torn t) (runs.take t.whole) := by
  cases t with
  | nothing => exact List.take_zero ..
  | header n m => exact ⟨.nil, fun a ha => by cases ha⟩
  | lines k => exact read_take_ok hc hr h k
  | mid k j m => exact ht.elim

open Classical in
/-- the number of times an experiment was completed -/
noncomputable def times (runs : List (Exper × List (String × Cell))) (c : Exper) : ℕ :=
  (runs.filter fun a => decide (a.1.Same c)).length

structure DeskOk (csv : Csv) (num : String → Prop) (keys : String → List String) (evs : List CrashEvent) (s : Desk) :
    Prop where
  proc : ∀ F, s.proc = some F → FrameOk csv F s.kept
  file : FileOk csv s.file s.kept
  sub : s.kept.Sublist s.runs
  runs : ∀ a ∈ s.runs, RunOk csv num keys a ∧ ∃ e ∈ evs, e.asks = some a.1
  once : s.kept.Pairwise fun a b => ¬ a.1.Same b.1
  times : ∀ c, times s.runs c ≤ (evs.filter (·.harms)).length + times s.kept c

theorem _root_.TTS.Exper.Same.symm {c d : Exper} (h : c.Same d) : d.Same c := ⟨h.1.symm, fun k => (h.2 k).symm⟩

theorem _root_.TTS.Exper.Same.trans {c d e : Exper} (h : c.Same d) (h' : d.Same e) : c.Same e :=
  ⟨h.1.trans h'.1, fun k => (h.2 k).trans (h'.2 k)⟩

theorem times_append (l l' : List (Exper × List (String × Cell))) (c : Exper) :
    times (l ++ l') c = times l c + times l' c := by
  unfold times
  rw [List.filter_append, List.length_append]

theorem times_le_one {l : List (Exper × List (String × Cell))} (h : l.Pairwise fun a b => ¬ a.1.Same b.1) (c : Exper) :
    times l c ≤ 1 := by
  classical
  unfold times
  have hp := h.filter (fun a => decide (a.1.Same c))
  generalize hl : l.filter (fun a => decide (a.1.Same c)) = m at hp
  match m, hp with
  | [], _ => simp
  | [_], _ => simp
  | a :: b :: m, hp =>
    exfalso
    have ha : a ∈ l.filter (fun a => decide (a.1.Same c)) := by rw [hl]; simp
    have hb : b ∈ l.filter (fun a => decide (a.1.Same c)) := by rw [hl]; simp
    rw [List.mem_filter, decide_eq_true_eq] at ha hb
    rw [List.pairwise_cons] at hp
    exact hp.1 b (by simp) (ha.2.trans hb.2.symm)

theorem times_zero {l : List (Exper × List (String × Cell))} {c : Exper} (h : ∀ a ∈ l, ¬ a.1.Same c) : times l c = 0 := by
  unfold times
  rw [List.length_eq_zero_iff, List.filter_eq_nil_iff]
  intro a ha
  simpa using h a ha

theorem times_single (a : Exper × List (String × Cell)) (c : Exper) : times [a] c ≤ 1 := by
  unfold times
  exact (List.length_filter_le _ _).trans (by simp)

theorem desk_start (hc : CsvOk csv) {evs : List CrashEvent} {s : Desk} (h : DeskOk csv num keys evs s) :
    DeskOk csv num keys (evs ++ [.start]) (s.start csv) := by
  have key : ∀ p, (∀ F, p = some F → FrameOk csv F s.kept) → DeskOk csv num keys (evs ++ [.start]) { s with proc := p } :=
    fun p hp => ⟨hp, h.file, h.sub, fun a ha => ⟨(h.runs a ha).1, by
      obtain ⟨e, he, h'⟩ := (h.runs a ha).2
      exact ⟨e, List.mem_append_left _ he, h'⟩⟩, h.once, fun c => by
        have := h.times c
        simpa [List.filter_append, CrashEvent.harms] using this⟩
  have hf := h.file
  unfold Desk.start
  split
  · rename_i e
    rw [e] at hf
    refine key _ fun F hF => ?_
    injection hF with hF
    subst hF
    rw [show s.kept = [] from hf]
    exact ⟨.nil, fun a ha => by cases ha⟩
  · exact key _ fun F hF => by cases hF
  · rename_i S e
    rw [e] at hf
    refine key _ fun F hF => ?_
    injection hF with hF
    subst hF
    exact hf

theorem desk_call (hc : CsvOk csv) {evs : List CrashEvent} {s : Desk} (h : DeskOk csv num keys evs s) {c : Exper}
    (hs : Suite csv num keys c) (e : CrashEvent) (he : e.asks = some c) (cut : Option Cut)
    (ht : ∀ t, cut = some t → t.AtLine ∧ e.harms = true) :
    DeskOk csv num keys (evs ++ [e]) (s.call csv c cut) := by
  have hr : ∀ a ∈ s.runs, RunOk csv num keys a := fun a ha => (h.runs a ha).1
  have hk : ∀ a ∈ s.kept, RunOk csv num keys a := fun a ha => hr a (h.sub.subset ha)
  have mono : ∀ a ∈ s.runs, RunOk csv num keys a ∧ ∃ e' ∈ evs ++ [e], e'.asks = some a.1 := fun a ha => by
    obtain ⟨e', he', h'⟩ := (h.runs a ha).2
    exact ⟨hr a ha, e', List.mem_append_left _ he', h'⟩
  have tmono : ∀ d, times s.runs d ≤ ((evs ++ [e]).filter (·.harms)).length + times s.kept d := fun d => by
    have := h.times d
    rw [List.filter_append, List.length_append]
    omega
  unfold Desk.call
  split
  · exact ⟨h.proc, h.file, h.sub, mono, h.once, tmono⟩
  · rename_i F hF
    have hFok := h.proc F hF
    have alive : ∀ G, (if cut.isSome then none else some F) = some G → FrameOk csv G s.kept := by
      intro G hG
      split at hG
      · cases hG
      · injection hG with hG
        subst hG
        exact hFok
    dsimp only
    split
    · exact ⟨alive, h.file, h.sub, mono, h.once, tmono⟩
    · rename_i hd
      split
      · exact ⟨alive, h.file, h.sub, mono, h.once, tmono⟩
      · rename_i res hres
        have hf := append_ok hFok (c, res)
        have hnew : RunOk csv num keys (c, res) := ⟨hs, hres⟩
        have hk' : ∀ a ∈ s.kept ++ [(c, res)], RunOk csv num keys a := fun a ha => by
          rcases List.mem_append.1 ha with h1 | h1
          · exact hk a h1
          · rw [List.mem_singleton] at h1
            subst h1
            exact hnew
        have mono' : ∀ a ∈ s.runs ++ [(c, res)], RunOk csv num keys a ∧ ∃ e' ∈ evs ++ [e], e'.asks = some a.1 := fun a ha => by
          rcases List.mem_append.1 ha with h1 | h1
          · exact mono a h1
          · rw [List.mem_singleton] at h1
            subst h1
            exact ⟨hnew, e, by simp, he⟩
        have hsub : (s.kept ++ [(c, res)]).Sublist (s.runs ++ [(c, res)]) := h.sub.append_right _
        have hne : ∀ a ∈ s.kept, ¬ a.1.Same c := fun a ha hsame => hd ((done_iff hk hFok hs).2 ⟨a, ha, hsame⟩)
        have honce : (s.kept ++ [(c, res)]).Pairwise fun a b => ¬ a.1.Same b.1 := by
          refine List.pairwise_append.2 ⟨h.once, List.pairwise_singleton _ _, fun a ha b hb hsame => ?_⟩
          rw [List.mem_singleton] at hb
          subst hb
          exact hne a ha hsame
        split
        · refine ⟨fun G hG => ?_, write_ok hc hk' hf, hsub, mono', honce, fun d => ?_⟩
          · injection hG with hG
            subst hG
            exact hf
          · show times (s.runs ++ [(c, res)]) d ≤ _ + times (s.kept ++ [(c, res)]) d
            rw [times_append, times_append]
            have := tmono d
            omega
        · rename_i t
          obtain ⟨ht1, ht2⟩ := ht t rfl
          refine ⟨fun G hG => (by cases hG), torn_ok hc hk' hf t ht1, (List.take_sublist _ _).trans hsub, mono',
            honce.sublist (List.take_sublist _ _), fun d => ?_⟩
          show times (s.runs ++ [(c, res)]) d ≤ _
          rw [times_append, List.filter_append, List.length_append, List.filter_singleton, ht2]
          have h1 := h.times d
          have h2 := times_single (c, res) d
          have h3 := times_le_one h.once d
          by_cases hsame : c.Same d
          · have : times s.kept d = 0 := times_zero fun a ha h' => hne a ha (h'.trans hsame.symm)
            simp only [Bool.cond_true, List.length_singleton]
            omega
          · have : times [((c, res) : Exper × List (String × Cell))] d = 0 := times_zero fun a ha => by
              rw [List.mem_singleton] at ha
              subst ha
              exact hsame
            simp only [Bool.cond_true, List.length_singleton]
            omega

theorem desk_ok (hc : CsvOk csv) (evs : List CrashEvent) (hg : GoodHistory csv num keys evs) :
    DeskOk csv num keys evs (Desk.history csv evs) := by
  induction evs using List.reverseRecOn with
  | nil =>
    exact ⟨fun F hF => (by cases hF), rfl, List.Sublist.refl _, fun a ha => (by cases ha), .nil, fun c => le_rfl⟩
  | append_singleton evs e ih =>
    have h := ih fun e' he' => hg e' (List.mem_append_left _ he')
    have h1 := hg e (by simp)
    unfold Desk.history at h ⊢
    rw [List.foldl_append]
    cases e with
    | start => exact desk_start hc h
    | call c => exact desk_call hc h (h1.1 c rfl) _ rfl none fun t ht => by cases ht
    | killed c t => exact desk_call hc h (h1.1 c rfl) _ rfl (some t) (by
        intro t' ht
        injection ht with ht
        subst ht
        exact ⟨h1.2 c t rfl, rfl⟩)
    | reset =>
      refine ⟨fun F hF => (by cases hF), rfl, List.nil_sublist _, fun a ha => ?_, .nil, fun c => ?_⟩
      · obtain ⟨e', he', h'⟩ := (h.runs a ha).2
        exact ⟨(h.runs a ha).1, e', List.mem_append_left _ he', h'⟩
      · have h2 := h.times c
        have h3 := times_le_one h.once c
        show times (List.foldl (Desk.step csv) _ evs).runs c ≤ _
        rw [List.filter_append, List.length_append]
        show _ ≤ _ + 1 + times [] c
        omega

end

theorem shows_of {csv : Csv} {num : String → Prop} {keys : String → List String} {a : Exper × List (String × Cell)}
    {r : String → Cell} (ha : RunOk csv num keys a)
    (hr : ∀ k, (∀ cols, k ≠ csv.index cols) → r k = ((fullRow a).lookup k).getD .nan) : Shows a r := by
  refine ⟨?_, fun p hp => ?_, fun p hp => ?_⟩
  · rw [hr "name" fun cols e => (ha.1.index cols).1 e.symm, full_name ha]
    rfl
  · have hk := (ha.1.params p.1).1 (List.mem_map.2 ⟨p, hp, rfl⟩)
    rw [hr p.1 fun cols e => (ha.1.index cols).2 (e ▸ hk), full_param ha hk, lookup_of_mem ha.1.nodup hp]
    rfl
  · rw [hr p.1 ((ha.1.results _ ha.2).2 p hp).2.2.2, full_res ha hp]
    rfl

/-- **C87.** Through every history of processes that may also be killed while they save the table, as long as no line of
the file is cut in the middle: the rows of the table are those of completed experiments, no two of the same one, each with
its name, parameters and results, and are exactly those whose lines were not cut off; an experiment is completed at most
once more than there were kills while saving and deleted files. -/
theorem C87 (csv : Csv) (hc : CsvOk csv) (num : String → Prop) (keys : String → List String) (evs : List CrashEvent)
    (hg : GoodHistory csv num keys evs) :
    (∀ F, (Desk.history csv evs).proc = some F → List.Forall₂ Shows (Desk.history csv evs).kept F.rows) ∧
    (Desk.history csv evs).kept.Sublist (Desk.history csv evs).runs ∧
    ((Desk.history csv evs).kept.Pairwise fun a b => ¬ a.1.Same b.1) ∧
    (∀ a ∈ (Desk.history csv evs).runs, a.1.result = some a.2 ∧ ∃ e ∈ evs, e.asks = some a.1) ∧
    ∀ (c : Exper) (l : List (Exper × List (String × Cell))), l.Sublist (Desk.history csv evs).runs →
      (∀ a ∈ l, a.1.Same c) → l.length ≤ (evs.filter (·.harms)).length + 1 := by
  have h := desk_ok hc evs hg
  refine ⟨fun F hF => ?_, h.sub, h.once, fun a ha => ⟨(h.runs a ha).1.2, (h.runs a ha).2⟩, fun c l hl hsame => ?_⟩
  · have h0 := (h.proc F hF).rows
    rw [List.forall₂_iff_get] at h0 ⊢
    refine ⟨h0.1, fun i h1 h2 => ?_⟩
    exact shows_of (h.runs _ (h.sub.subset (List.get_mem _ ⟨i, h1⟩))).1 (h0.2 i h1 h2)
  · have h1 := h.times c
    have h2 := times_le_one h.once c
    have h3 : l.length ≤ times (Desk.history csv evs).runs c := by
      classical
      have := (hl.filter fun a => decide (a.1.Same c)).length_le
      rw [List.filter_eq_self.2 fun a ha => by simpa using hsame a ha] at this
      exact this
    omega

/-- **C87, one step.** If there is a process, an experiment whose function returns is recorded right after it was asked
for; starting and asking never remove anything from the table; a kill while saving leaves the first whole lines. -/
theorem C87_step (csv : Csv) (hc : CsvOk csv) (num : String → Prop) (keys : String → List String) (evs : List CrashEvent)
    (hg : GoodHistory csv num keys evs) :
    (∀ c, Suite csv num keys c → (Desk.history csv evs).proc ≠ none → c.result ≠ none →
      (Desk.history csv (evs ++ [.call c])).proc ≠ none ∧
      ∃ a ∈ (Desk.history csv (evs ++ [.call c])).kept, a.1.Same c) ∧
    (∀ e : CrashEvent, e.harms = false → (Desk.history csv evs).kept <+: (Desk.history csv (evs ++ [e])).kept) ∧
    ∀ c t, ∃ l, (Desk.history csv (evs ++ [.killed c t])).kept = (Desk.history csv evs).kept ∨
      (Desk.history csv (evs ++ [.killed c t])).kept = ((Desk.history csv evs).kept ++ l).take t.whole := by
  have h := desk_ok hc evs hg
  have hst : ∀ e, Desk.history csv (evs ++ [e]) = (Desk.history csv evs).step csv e := fun e => by
    unfold Desk.history
    rw [List.foldl_append]
    rfl
  simp only [hst]
  generalize Desk.history csv evs = s at h ⊢
  refine ⟨fun c hs hp hn => ?_, fun e he => ?_, fun c t => ?_⟩
  · show (s.call csv c none).proc ≠ none ∧ ∃ a ∈ (s.call csv c none).kept, a.1.Same c
    unfold Desk.call
    split
    · rename_i e
      exact absurd e hp
    · rename_i F hF
      dsimp only
      split
      · rename_i hd
        refine ⟨by simp, ?_⟩
        exact (done_iff (fun a ha => (h.runs a (h.sub.subset ha)).1) (h.proc F hF) hs).1 hd
      · split
        · rename_i e
          exact absurd e hn
        · exact ⟨by simp, _, List.mem_append_right _ (List.mem_singleton.2 rfl), Exper.Same.refl _⟩
  · cases e with
    | start =>
      show s.kept <+: (s.start csv).kept
      unfold Desk.start
      split <;> exact List.prefix_rfl
    | call c =>
      show s.kept <+: (s.call csv c none).kept
      unfold Desk.call
      split
      · exact List.prefix_rfl
      · dsimp only
        split
        · exact List.prefix_rfl
        · split
          · exact List.prefix_rfl
          · exact List.prefix_append _ _
    | killed c t => cases he
    | reset => cases he
  · show ∃ l, (s.call csv c (some t)).kept = s.kept ∨ (s.call csv c (some t)).kept = (s.kept ++ l).take t.whole
    unfold Desk.call
    split
    · exact ⟨[], .inl rfl⟩
    · dsimp only
      split
      · exact ⟨[], .inl rfl⟩
      · split
        · exact ⟨[], .inl rfl⟩
        · exact ⟨_, .inr rfl⟩

/-- **C87, counterexample.** If the process is killed before the first character is written, the file is empty; reading it
raises, so that no process can start and nothing is run any more until the file is deleted by hand. -/
theorem C87_blank (csv : Csv) (evs more : List CrashEvent) (c : Exper) (F : Frame)
    (hp : (Desk.history csv evs).proc = some F) (hd : F.done c.row = false) (hn : c.result ≠ none)
    (hm : .reset ∉ more) :
    (Desk.history csv (evs ++ [.killed c .nothing] ++ more)).proc = none ∧
    (Desk.history csv (evs ++ [.killed c .nothing] ++ more)).runs
      = (Desk.history csv (evs ++ [.killed c .nothing])).runs ∧
    (Desk.history csv (evs ++ [.killed c .nothing])).kept = [] := by
  obtain ⟨res, hres⟩ := Option.ne_none_iff_exists'.1 hn
  have e0 : Desk.history csv (evs ++ [.killed c .nothing])
      = ⟨.blank, none, (Desk.history csv evs).runs ++ [(c, res)], []⟩ := by
    unfold Desk.history at hp ⊢
    rw [List.foldl_append]
    show Desk.call csv _ c (some .nothing) = _
    unfold Desk.call
    rw [hp]
    dsimp only
    rw [if_neg (by rw [hd]; decide), hres]
    rfl
  have key : Desk.history csv (evs ++ [.killed c .nothing] ++ more) = Desk.history csv (evs ++ [.killed c .nothing]) := by
    rw [e0]
    unfold Desk.history at e0 ⊢
    rw [List.foldl_append, e0]
    clear e0 hp hd
    induction more with
    | nil => rfl
    | cons e more ih =>
      rw [List.foldl_cons]
      have : Desk.step csv ⟨.blank, none, (List.foldl (Desk.step csv) ⟨.absent, none, [], []⟩ evs).runs ++ [(c, res)], []⟩ e
          = ⟨.blank, none, (List.foldl (Desk.step csv) ⟨.absent, none, [], []⟩ evs).runs ++ [(c, res)], []⟩ := by
        cases e with
        | start => rfl
        | call c => rfl
        | killed c t => rfl
        | reset => exact absurd List.mem_cons_self hm
      rw [this]
      exact ih fun h => hm (List.mem_cons_of_mem _ h)
  rw [key, e0]
  exact ⟨rfl, rfl, rfl⟩

/-- **C87, counterexample.** If a line is cut in the middle, the next process finds a row with another value of a
parameter: the results of the experiment with rank 15 stand in the row of rank 1, and the experiment with rank 1 is taken
for done and never run. -/
theorem C87_cut (csv : Csv) (hc : CsvOk csv) (h15 : csv.fmt 15 = "15") (h1 : csv.fmt 1 = "1")
    (ha : csv.na "a" = false) (ha' : csv.parse "a" = none) (hi : ∀ cols, csv.index cols ≠ "rank" ∧ csv.index cols ≠ "name"
      ∧ csv.index cols ≠ "error") :
    let s := Desk.history csv [.start, .killed (exp1 (.num 15)) (.mid 0 4 1), .start, .call (exp1 (.num 1))]
    s.runs.map (fun a => a.1) = [exp1 (.num 15)] ∧
    ∃ F r, s.proc = some F ∧ F.rows = [r] ∧ r "name" = .str "a" ∧ r "rank" = .num 1 ∧ r "error" = .num 1 := by
  have n1 : csv.na "1" = false := h1 ▸ hc.na_fmt 1
  have p1 : csv.parse "1" = some 1 := h1 ▸ hc.parse_fmt 1
  let S : Sheet := ⟨["name", "error", "time_taken", "rank"], [[csv.fmt 0, "a", csv.fmt 1, "", "1"]]⟩
  have e1 : Desk.history csv [.start, .killed (exp1 (.num 15)) (.mid 0 4 1)]
      = ⟨.sheet S, none, [(exp1 (.num 15), [("error", .num 1)])], []⟩ := by
    show Desk.mk (Sheet.torn ⟨["name", "error", "time_taken", "rank"],
      [[csv.fmt 0, "a", csv.fmt 1, "", csv.fmt 15]]⟩ (.mid 0 4 1)) none _ _ = _
    rw [h15]
    have : cutText "15" 1 = "1" := by decide
    show Desk.mk (.sheet ⟨["name", "error", "time_taken", "rank"],
      [[csv.fmt 0, "a", csv.fmt 1, "", cutText "15" 1]]⟩) none [(exp1 (.num 15), [("error", .num 1)])] [] = _
    rw [this]
  have e2 : Desk.history csv [.start, .killed (exp1 (.num 15)) (.mid 0 4 1), .start]
      = ⟨.sheet S, some (csv.read S), [(exp1 (.num 15), [("error", .num 1)])], []⟩ := by
    show (Desk.history csv [.start, .killed (exp1 (.num 15)) (.mid 0 4 1)]).start csv = _
    rw [e1]
    rfl
  obtain ⟨r, hr⟩ : ∃ r, (csv.read S).rows = [r] ∧ r "name" = .str "a" ∧ r "rank" = .num 1 ∧ r "error" = .num 1 := by
    refine ⟨_, rfl, ?_, ?_, ?_⟩
    · show csv.readCell [[csv.fmt 0, "a", csv.fmt 1, "", "1"].getD ((csv.index S.header :: S.header).idxOf "name") ""]
        ([csv.fmt 0, "a", csv.fmt 1, "", "1"].getD ((csv.index S.header :: S.header).idxOf "name") "") = _
      rw [List.idxOf_cons_ne _ (hi S.header).2.1]
      show csv.readCell ["a"] "a" = _
      simp [Csv.readCell, ha, ha']
    · show csv.readCell [[csv.fmt 0, "a", csv.fmt 1, "", "1"].getD ((csv.index S.header :: S.header).idxOf "rank") ""]
        ([csv.fmt 0, "a", csv.fmt 1, "", "1"].getD ((csv.index S.header :: S.header).idxOf "rank") "") = _
      rw [List.idxOf_cons_ne _ (hi S.header).1]
      show csv.readCell ["1"] "1" = _
      simp [Csv.readCell, n1, p1]
    · show csv.readCell [[csv.fmt 0, "a", csv.fmt 1, "", "1"].getD ((csv.index S.header :: S.header).idxOf "error") ""]
        ([csv.fmt 0, "a", csv.fmt 1, "", "1"].getD ((csv.index S.header :: S.header).idxOf "error") "") = _
      rw [List.idxOf_cons_ne _ (hi S.header).2.2]
      show csv.readCell [csv.fmt 1] (csv.fmt 1) = _
      simp [Csv.readCell, n1, p1, h1]
  have hdone : (csv.read S).done (exp1 (.num 1)).row = true := by
    unfold Frame.done
    rw [hr.1, Bool.and_eq_true]
    refine ⟨?_, ?_⟩
    · rw [List.all_eq_true]
      intro p hp
      simp only [exp1, Exper.row, dictSet, List.map_cons, List.map_nil] at hp
      have : p.1 = "rank" ∨ p.1 = "name" := by
        revert hp
        simp only [List.mem_singleton, reduceCtorEq, String.reduceEq, if_false, List.cons_append, List.nil_append,
          List.mem_cons, List.not_mem_nil, or_false]
        rintro (rfl | rfl)
        · exact .inl rfl
        · exact .inr rfl
      refine decide_eq_true ?_
      show p.1 ∈ csv.index S.header :: S.header
      rcases this with e | e <;> rw [e] <;> simp [S]
    · simp [exp1, Exper.row, dictSet, Arg.cell, hr.2.1, hr.2.2.1, Cell.eqv]
  have e3 : Desk.history csv [.start, .killed (exp1 (.num 15)) (.mid 0 4 1), .start, .call (exp1 (.num 1))]
      = ⟨.sheet S, some (csv.read S), [(exp1 (.num 15), [("error", .num 1)])], []⟩ := by
    show (Desk.history csv [.start, .killed (exp1 (.num 15)) (.mid 0 4 1), .start]).call csv (exp1 (.num 1)) none = _
    rw [e2]
    unfold Desk.call
    dsimp only
    rw [if_pos hdone]
    rfl
  rw [e3]
  exact ⟨rfl, _, r, rfl, hr.1, hr.2.1, hr.2.2.1, hr.2.2.2⟩

/-! ### the assumptions can be met -/

/-- numbers as texts: 1 and 15 in decimal notation, others as unary codes after a letter -/
def fmt87 (q : ℚ) : String := if q = 15 then "15" else if q = 1 then "1" else String.ofList ('x' :: (unary q).toList)

theorem fmt87_inj {q r : ℚ} (h : fmt87 q = fmt87 r) : q = r := by
  unfold fmt87 at h
  split_ifs at h with a b c d e f
  · rw [a, b]
  · exact absurd h (by decide)
  · exact absurd (congrArg (fun s : String => s.toList.head?) h) (by simp)
  · exact absurd h (by decide)
  · rw [d, f]
  · exact absurd (congrArg (fun s : String => s.toList.head?) h) (by simp)
  · exact absurd (congrArg (fun s : String => s.toList.head?) h) (by simp)
  · exact absurd (congrArg (fun s : String => s.toList.head?) h) (by simp)
  · have := congrArg String.toList h
    simp only [String.toList_ofList, List.cons.injEq, true_and] at this
    exact unary_inj (String.toList_inj.1 this)

open Classical in
noncomputable def csv87 : Csv where
  fmt := fmt87
  parse s := if h : ∃ q, fmt87 q = s then some h.choose else none
  na s := decide (s = "")
  index := csv0.index

open Classical in
theorem csv87_ok : CsvOk csv87 where
  parse_fmt q := by
    have h : ∃ r, fmt87 r = fmt87 q := ⟨q, rfl⟩
    show (if h : ∃ r, fmt87 r = fmt87 q then some h.choose else none) = some q
    rw [dif_pos h]
    exact congrArg some (fmt87_inj h.choose_spec)
  na_fmt q := by
    refine decide_eq_false fun e => ?_
    change fmt87 q = "" at e
    unfold fmt87 at e
    split_ifs at e
    · exact absurd e (by decide)
    · exact absurd e (by decide)
    · exact absurd (congrArg (fun s : String => s.toList.head?) e) (by simp)
  na_empty := by simp [csv87]
  index_new := csv0_ok.index_new

open Classical in
/-- `C87_cut` applies -/
example : let s := Desk.history csv87 [.start, .killed (exp1 (.num 15)) (.mid 0 4 1), .start, .call (exp1 (.num 1))]
    s.runs.map (fun a => a.1) = [exp1 (.num 15)] ∧
    ∃ F r, s.proc = some F ∧ F.rows = [r] ∧ r "name" = .str "a" ∧ r "rank" = .num 1 ∧ r "error" = .num 1 := by
  refine C87_cut csv87 csv87_ok rfl rfl (by simp [csv87]) ?_ fun cols =>
    ⟨csv0_index cols (c := 'r') (l := "ank".toList) rfl (by decide),
      csv0_index cols (c := 'n') (l := "ame".toList) rfl (by decide),
      csv0_index cols (c := 'e') (l := "rror".toList) rfl (by decide)⟩
  show (if h : ∃ q, fmt87 q = "a" then some h.choose else none) = none
  rw [dif_neg]
  rintro ⟨q, hq⟩
  unfold fmt87 at hq
  split_ifs at hq
  · exact absurd hq (by decide)
  · exact absurd hq (by decide)
  · exact absurd (congrArg (fun s : String => s.toList.head?) hq) (by simp)

/-- a history with a kill that leaves one line of two, one in the first line, and deleted files -/
def h87 (c d : Exper) : List CrashEvent :=
  [.start, .call c, .killed d (.lines 1), .start, .call d, .start, .killed c (.header 1 2), .start, .call c, .reset, .start,
    .killed d .nothing, .start, .reset, .start, .call d]

/-- `C87` and `C87_step` apply to a history with all kinds of events -/
example : GoodHistory csv0 (fun k => k = "rank" ∨ k = "error") (fun _ => ["rank"])
    (h87 ⟨"sketch", [("rank", .num 5)], some [("error", .num 1)]⟩ ⟨"sketch", [("rank", .num 6)], some [("error", .nan)]⟩) := by
  have t1 := csv0_text (s := "sketch") (c := 's') (l := "ketch".toList) rfl (by decide)
  have i1 : ∀ cols, csv0.index cols ≠ "name" := fun cols =>
    csv0_index cols (c := 'n') (l := "ame".toList) rfl (by decide)
  have i2 : ∀ cols, csv0.index cols ≠ "rank" := fun cols =>
    csv0_index cols (c := 'r') (l := "ank".toList) rfl (by decide)
  have i4 : ∀ cols, "error" ≠ csv0.index cols := fun cols =>
    (csv0_index cols (c := 'e') (l := "rror".toList) rfl (by decide)).symm
  have s1 : ∀ q v, (v = Cell.num 1 ∨ v = .nan) → Suite csv0 (fun k => k = "rank" ∨ k = "error") (fun _ => ["rank"])
      ⟨"sketch", [("rank", .num q)], some [("error", v)]⟩ := by
    intro q v hv
    refine ⟨by simp, by simp, fun k => by simp, by simp [Fits, t1], by simp [Fits, Arg.shown], ?_, ?_⟩
    · rcases hv with rfl | rfl <;> simp [Fits, i4]
    · simp [i1, i2]
  intro e he
  simp only [h87, List.mem_cons, List.not_mem_nil, or_false] at he
  rcases he with rfl | rfl | rfl | rfl | rfl | rfl | rfl | rfl | rfl | rfl | rfl | rfl | rfl | rfl | rfl | rfl <;>
  · refine ⟨fun c hc => ?_, fun c t ht => ?_⟩
    · first
      | cases hc; done
      | (injection hc with hc; subst hc; exact s1 _ _ (by simp))
    · first
      | cases ht; done
      | (injection ht with _ ht; subst ht; trivial)

/-- a kill that leaves one line of two -/
example : let s := Desk.history csv0 [.start, .call (exp1 (.num 5)), .killed (exp1 (.num 6)) (.lines 1)]
    s.runs.length = 2 ∧ s.kept.length = 1 := ⟨rfl, rfl⟩

end TTS.Props
