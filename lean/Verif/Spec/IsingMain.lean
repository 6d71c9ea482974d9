import Verif.Model.IsingMain
import Mathlib.Analysis.SpecialFunctions.Sqrt

/-! The terms in which C109 is stated. -/
namespace Trng.IsingMain

/-- The options of the program. -/
def IsOption (a : List Char) : Prop := a = "--gen".toList ∨ a = "--runs".toList ∨ a = "--split".toList ∨ a = "--size".toList

/-- The command line with options and values. -/
def commandLine (ps : List (List Char × List Char)) : List (List Char) := ps.flatMap fun p => [p.1, p.2]

/-- The value of the last option of that name. -/
def lastValue (name : List Char) (ps : List (List Char × List Char)) : Option (List Char) :=
  (ps.reverse.find? fun p => p.1 = name).map Prod.snd

/-- The mean of numbers. -/
noncomputable def mean (x : List ℝ) : ℝ := x.sum / x.length

/-- The standard error of the mean. -/
noncomputable def standardError (x : List ℝ) : ℝ :=
  Real.sqrt ((x.map fun v => (v - mean x) ^ 2).sum / (((x.length : ℝ) - 1) * x.length))

end Trng.IsingMain
