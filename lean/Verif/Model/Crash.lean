import Verif.Model.Experiment

/-!
# Model of `scripts/experiment_base.py`: kills while the table is being saved

`Model/Experiment.lean` has processes that are killed anywhere but inside `save`.  Here the file is text: a line with the
names of the columns and one line for each row, cut into cells; a process that is killed in `to_csv` leaves a prefix of
it.  Simplifications: quoting of cells with commas and the line ends themselves are not modelled.
-/

namespace TTS

/-- The text of a csv file: the names of the columns (without the index column in front, which has no name) and the
lines, each beginning with the cell of the index column. -/
structure Sheet where
  header : List String
  lines : List (List String)

namespace Csv

/-- `experiment_base.py` 37-38: `self.data.to_csv(self.filename)` -/
def write (csv : Csv) (F : Frame) : Sheet :=
  ⟨F.cols, F.rows.zipIdx.map fun rk => csv.fmt rk.2 :: F.cols.map fun c => csv.text (rk.1 c)⟩

/-- `experiment_base.py` 26, 34: `pd.read_csv(filename)` for a file with at least part of the first line; cells that are
missing at the end of a line are missing values. -/
def read (csv : Csv) (S : Sheet) : Frame :=
  ⟨csv.index S.header :: S.header, S.lines.map fun ln c =>
    let p := (csv.index S.header :: S.header).idxOf c
    csv.readCell (S.lines.map (·.getD p "")) (ln.getD p "")⟩

end Csv

/-- Where the text ends when the process is killed in `to_csv`: before the first character; in the first line, after `n`
names and `m` characters of the next one; after `k` whole lines; after `k` whole lines, `j` cells and `m` characters. -/
inductive Cut
  | nothing
  | header (n m : ℕ)
  | lines (k : ℕ)
  | mid (k j m : ℕ)

/-- the file: missing, without any text, or with text -/
inductive CsvFile
  | absent
  | blank
  | sheet (S : Sheet)

def cutText (s : String) (m : ℕ) : String := String.ofList (s.toList.take m)

/-- what is in the file -/
def Sheet.torn (S : Sheet) : Cut → CsvFile
  | .nothing => .blank
  | .header n m => .sheet ⟨S.header.take n ++ [cutText (S.header.getD n "") m], []⟩
  | .lines k => .sheet ⟨S.header, S.lines.take k⟩
  | .mid k j m => .sheet ⟨S.header, S.lines.take k ++
      [(S.lines.getD k []).take j ++ [cutText ((S.lines.getD k []).getD j "") m]]⟩

/-- number of whole lines that are left -/
def Cut.whole : Cut → ℕ
  | .nothing => 0
  | .header _ _ => 0
  | .lines k => k
  | .mid k _ _ => k

/-- The file and the process (`none`: there is none) with its table.  Not in the code: `runs`, the experiments whose
function was called and returned; `kept`, those of them whose lines have not been cut off. -/
structure Desk where
  file : CsvFile
  proc : Option Frame
  runs : List (Exper × List (String × Cell))
  kept : List (Exper × List (String × Cell))

inductive CrashEvent
  /-- a process starts; the one before has ended, or was killed outside `save` -/
  | start
  /-- the process calls `do_experiment` -/
  | call (c : Exper)
  /-- the process calls `do_experiment` and is killed in `save` (or before it, if there is nothing to save) -/
  | killed (c : Exper) (cut : Cut)
  /-- the process ends and the user deletes the file -/
  | reset

namespace Desk

/-- `experiment_base.py` 18-30; `read_csv` raises `EmptyDataError` for a file without text, so there is no process. -/
def start (csv : Csv) (s : Desk) : Desk :=
  match s.file with
  | .absent => { s with proc := some .empty }
  | .blank => { s with proc := none }
  | .sheet S => { s with proc := some (csv.read S) }

/-- `experiment_base.py` 50-90: `do_experiment`; `cut` is given if the process is killed while the table is saved. -/
def call (csv : Csv) (s : Desk) (c : Exper) (cut : Option Cut) : Desk :=
  match s.proc with
  | none => s
  | some F =>
    let alive := if cut.isSome then none else some F
    if F.done c.row then { s with proc := alive }
    else match c.result with
      | none => { s with proc := alive }
      | some res =>
        let data := F.append (res.foldl dictSet c.row)
        match cut with
        | none => ⟨.sheet (csv.write data), some data, s.runs ++ [(c, res)], s.kept ++ [(c, res)]⟩
        | some t => ⟨(csv.write data).torn t, none, s.runs ++ [(c, res)], (s.kept ++ [(c, res)]).take t.whole⟩

def step (csv : Csv) (s : Desk) : CrashEvent → Desk
  | .start => s.start csv
  | .call c => s.call csv c none
  | .killed c t => s.call csv c (some t)
  | .reset => ⟨.absent, none, s.runs, []⟩

/-- the history, from the beginning -/
def history (csv : Csv) (evs : List CrashEvent) : Desk := evs.foldl (step csv) ⟨.absent, none, [], []⟩

end Desk

end TTS
