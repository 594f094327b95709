import Verif.Model.Crash
import Verif.Spec.Experiment

/-! # Histories with kills during the saving of the table -/

namespace TTS

/-- the text does not end inside the line of an experiment -/
def Cut.AtLine : Cut → Prop
  | .mid _ _ _ => False
  | _ => True

/-- the experiments that are asked for -/
def CrashEvent.asks : CrashEvent → Option Exper
  | .call c => some c
  | .killed c _ => some c
  | _ => none

/-- events that can destroy part of the file -/
def CrashEvent.harms : CrashEvent → Bool
  | .killed _ _ => true
  | .reset => true
  | _ => false

/-- a row of the table shows the experiment: its name, its parameters and its results -/
def Shows (a : Exper × List (String × Cell)) (r : String → Cell) : Prop :=
  r "name" = .str a.1.name ∧ (∀ p ∈ a.1.kwargs, r p.1 = p.2.shown) ∧ ∀ p ∈ a.2, r p.1 = p.2

/-- All experiments belong to the suite, and no line is cut in the middle. -/
def GoodHistory (csv : Csv) (num : String → Prop) (keys : String → List String) (evs : List CrashEvent) : Prop :=
  ∀ e ∈ evs, (∀ c, e.asks = some c → Suite csv num keys c) ∧ ∀ c t, e = .killed c t → t.AtLine

end TTS
