import Verif.Model.Tensor

/-!
# Model of `scripts/experiment_base.py`: `Experiment`

A table of results that is saved to a csv file after each experiment and loaded again by the next process.  A data frame
is a list of column names and a list of rows, each a function from column names to cells (`nan` where there is none).
Simplifications: numbers are rationals; `bool`s and dates are not modelled; the file holds the frame that was saved, and
what pandas makes of it is computed when it is read.  `Experiment.load` (32-35) is `Session.open` for an existing file.
-/

namespace TTS

inductive Cell
  | num (q : ℚ)
  | str (s : String)
  | nan
deriving DecidableEq

/-- `==` of pandas; `nan` is not equal to anything -/
def Cell.eqv : Cell → Cell → Bool
  | .num a, .num b => a = b
  | .str a, .str b => a = b
  | _, _ => false

/-- Values of keyword arguments: numbers, strings, objects with a `__name__`, other objects with their `str(...)`. -/
inductive Arg
  | num (q : ℚ)
  | str (s : String)
  | named (n : String)
  | other (repr : String)

/-- `experiment_base.py` 65-75: what is put into the row for an argument. -/
def Arg.cell : Arg → Cell
  | .num q => .num q
  | .str s => .str s
  | .named n => .str n
  | .other r => .str r

structure Frame where
  cols : List String
  rows : List (String → Cell)

/-- How pandas writes and reads numbers, which texts it reads as missing values, and the name it gives to the column
without a name (the index that `to_csv` writes in front). -/
structure Csv where
  fmt : ℚ → String
  parse : String → Option ℚ
  na : String → Bool
  index : List String → String

namespace Csv

/-- the text of a cell in the file -/
def text (csv : Csv) : Cell → String
  | .num q => csv.fmt q
  | .str s => s
  | .nan => ""

/-- `pd.read_csv` for one cell: a missing value, or a number if all texts in the column that are not missing values are
numbers, or a string. -/
def readCell (csv : Csv) (column : List String) (t : String) : Cell :=
  if csv.na t then .nan
  else if column.all fun u => csv.na u || (csv.parse u).isSome then
    match csv.parse t with
    | some q => .num q
    | none => .nan
  else .str t

/-- `to_csv` followed by `read_csv`: `to_csv` writes the index as a first column without a name. -/
def reload (csv : Csv) (F : Frame) : Frame :=
  ⟨csv.index F.cols :: F.cols, F.rows.zipIdx.map fun rk c =>
    if c = csv.index F.cols then .num rk.2
    else csv.readCell (F.rows.map fun r => csv.text (r c)) (csv.text (rk.1 c))⟩

end Csv

/-- a call of `do_experiment`: the name, the keyword arguments, and what the experiment function returns if it is
called now (`none`: it does not return, because of an exception or because the process is killed) -/
structure Exper where
  name : String
  kwargs : List (String × Arg)
  result : Option (List (String × Cell))

/-- `row[key] = value` -/
def dictSet (row : List (String × Cell)) (kv : String × Cell) : List (String × Cell) :=
  if kv.1 ∈ row.map Prod.fst then row.map fun p => if p.1 = kv.1 then kv else p else row ++ [kv]

/-- `experiment_base.py` 65-77: the row before the experiment. -/
def Exper.row (c : Exper) : List (String × Cell) :=
  dictSet (c.kwargs.map fun p => (p.1, p.2.cell)) ("name", .str c.name)

namespace Frame

/-- `experiment_base.py` 28: the empty table -/
def empty : Frame := ⟨["name", "error", "time_taken"], []⟩

/-- `experiment_base.py` 40-48: `check_experiment_done`; a missing column is a `KeyError`. -/
def done (F : Frame) (conds : List (String × Cell)) : Bool :=
  conds.all (fun c => c.1 ∈ F.cols) && F.rows.any fun r => conds.all fun c => (r c.1).eqv c.2

/-- `experiment_base.py` 87-88: `pd.concat` with a frame with one row -/
def append (F : Frame) (row : List (String × Cell)) : Frame :=
  ⟨F.cols ++ (row.map Prod.fst).filter (· ∉ F.cols), F.rows ++ [fun c => (row.lookup c).getD .nan]⟩

end Frame

/-- A process with an `Experiment` object: the file, the table in memory; `runs` records the experiments whose function
was called and returned, with what it returned (not in the code). -/
structure Session where
  file : Option Frame
  data : Frame
  runs : List (Exper × List (String × Cell))

namespace Session

/-- `experiment_base.py` 18-30: a process starts. -/
def «open» (csv : Csv) (s : Session) (force : Bool := false) : Session :=
  match s.file with
  | some F => if force then { s with data := .empty } else { s with data := csv.reload F }
  | none => { s with data := .empty }

/-- `experiment_base.py` 50-90: `do_experiment`. -/
def doExperiment (s : Session) (c : Exper) : Session :=
  if s.data.done c.row then s
  else match c.result with
    | none => s
    | some res =>
      let data := s.data.append (res.foldl dictSet c.row)
      ⟨some data, data, s.runs ++ [(c, res)]⟩

end Session

/-- What happens in the course of time: a process starts (the one before has ended or was killed, outside `save`), or the
process makes a call. -/
inductive ExpEvent
  | start
  | call (c : Exper)

/-- the history, from the beginning -/
def Session.step (csv : Csv) (s : Session) : ExpEvent → Session
  | .start => s.open csv
  | .call c => s.doExperiment c

def Session.history (csv : Csv) (evs : List ExpEvent) : Session :=
  evs.foldl (Session.step csv) (Session.open csv ⟨none, .empty, []⟩)

end TTS
