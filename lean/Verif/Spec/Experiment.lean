import Verif.Model.Experiment

/-! # Experiments that are recorded in a file -/

namespace TTS

/-- What is assumed about pandas: numbers survive being written and read, an empty text is a missing value, and the
unnamed column gets a new name. -/
structure CsvOk (csv : Csv) : Prop where
  parse_fmt : ∀ q, csv.parse (csv.fmt q) = some q
  na_fmt : ∀ q, csv.na (csv.fmt q) = false
  na_empty : csv.na "" = true
  index_new : ∀ cols, csv.index cols ∉ cols

/-- How an argument is recorded: numbers and strings as they are, functions and classes by their names, other objects by
their texts. -/
def Arg.shown : Arg → Cell
  | .num q => .num q
  | .str s => .str s
  | .named n => .str n
  | .other r => .str r

/-- Values that a column may hold: numbers in the columns with `num k`, and in the other columns texts that do not look
like numbers or missing values. -/
def Fits (csv : Csv) (num : String → Prop) (k : String) : Cell → Prop
  | .nan => True
  | .num _ => num k
  | .str s => ¬ num k ∧ csv.na s = false ∧ csv.parse s = none

/-- The experiments of one table: those with the same name have the same parameters (`keys`), the values fit the columns,
and what the experiment function returns has other names than the parameters. -/
structure Suite (csv : Csv) (num : String → Prop) (keys : String → List String) (c : Exper) : Prop where
  nodup : (c.kwargs.map Prod.fst).Nodup
  no_name : "name" ∉ c.kwargs.map Prod.fst
  params : ∀ k, k ∈ c.kwargs.map Prod.fst ↔ k ∈ keys c.name
  name : Fits csv num "name" (.str c.name)
  args : ∀ p ∈ c.kwargs, Fits csv num p.1 p.2.shown
  results : ∀ res, c.result = some res → (res.map Prod.fst).Nodup ∧
    ∀ p ∈ res, p.1 ≠ "name" ∧ p.1 ∉ keys c.name ∧ Fits csv num p.1 p.2 ∧ ∀ cols, p.1 ≠ csv.index cols
  index : ∀ cols, csv.index cols ≠ "name" ∧ csv.index cols ∉ keys c.name

/-- the same experiment: same name, same values of the parameters -/
def Exper.Same (c d : Exper) : Prop :=
  c.name = d.name ∧ ∀ k, (c.kwargs.lookup k).map Arg.shown = (d.kwargs.lookup k).map Arg.shown

end TTS
