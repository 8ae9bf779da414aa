import Verif.Model.Sim
import Verif.Spec.Symbol

/-! Specifications for the example simulation. -/

namespace Verif.Spec

/-- The bits `p` pass through the transmitter's encoder and the receiver's decoder unchanged. -/
def Recovered (d : CodingData) (p : List Int) : Prop :=
  ∃ s, encoder id d p = .ok s ∧ decoder d s = .ok (p.map (fun (x : Int) => (x : ℚ)))

/-- The binary stages one can switch on, with the factor by which each lengthens the stream. -/
inductive Stage where
  | none | binDifferential | manchester | bipolar | mlt3 | diffManchester
deriving DecidableEq, Repr

/-- exactly the stage `st` is on in the settings `d` -/
def OnlyStage (d : CodingData) (st : Stage) : Prop :=
  d.binDifferential = decide (st = .binDifferential) ∧ d.manchester = decide (st = .manchester) ∧
  d.bipolar = decide (st = .bipolar) ∧ d.mlt3 = decide (st = .mlt3) ∧
  d.diffManchester = decide (st = .diffManchester) ∧ d.linear = false ∧ d.conv = false

/-- number of coded values per bit -/
def Stage.expand : Stage → ℕ
  | .manchester => 2
  | .diffManchester => 2
  | _ => 1

/-- stages whose output has three levels -/
def Stage.ternary : Stage → Bool
  | .bipolar => true
  | .mlt3 => true
  | _ => false

/-- The conversion to symbols loses nothing: at most one bit per symbol, or whole symbols (and not the
single symbol on which `symbol2bin` fails when a matrix option is set). -/
def SymbolsFit (d : CodingData) (codedLen : ℕ) (ternary : Bool) : Prop :=
  match d.bps with
  | .whole b => b ≤ 1 ∨ (ternary = false ∧ b ∣ codedLen ∧
      (codedLen ≠ b ∨ (d.flags.bitOrderInv = false ∧ d.flags.invMsb = false ∧ d.flags.invLsb = false)))
  | .belowOne => True
  | .log2of3 => False

end Verif.Spec
