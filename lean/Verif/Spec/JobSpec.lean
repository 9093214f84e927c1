import Verif.Model.PyErr
import Mathlib.Data.String.Basic
/-! # C107: texts in lower and upper case -/
namespace Qudits.Spec

/-- the text is made of ASCII characters -/
def IsAscii (s : String) : Prop := ∀ c ∈ s.toList, c.toNat < 128

/-- `lower` turns the letters A-Z of ASCII texts to a-z and leaves the other characters alone; nothing is said about other texts -/
def LowersAscii (lower : String → String) : Prop := ∀ s, IsAscii s → lower s = String.ofList (s.toList.map Char.toLower)

end Qudits.Spec
