import Verif.Model.LevelGraph
/-
The energy-level graphs of the backends in /repo/src/mqt/qudits/simulation/backends. `energy_level_graphs` builds them at the first use and
keeps them; all graphs of a backend are declared alike.
-/
namespace Qudits.LGraph

/-- the data of an edge -/
def edgeOf (u v sensitivity : Int) : LEdge := (u, v, [("delta_m", 0), ("sensitivity", sensitivity)])

/-- the data of an edge of Innsbruck01 -/
def carrierEdge (u v sensitivity carrier : Int) : LEdge := (u, v, [("delta_m", 0), ("sensitivity", sensitivity), ("carrier", carrier)])

/-- `FakeIonTraps2Six`, fake_traps2six.py 36-53 = 55-72, and `FakeIonTraps3Six`, fake_traps3six.py 43-60 = 62-79 = 82-99 -/
def sixTrap : LGraph :=
  create [edgeOf 2 0 3, edgeOf 3 0 3, edgeOf 4 0 4, edgeOf 5 0 4, edgeOf 1 2 4, edgeOf 1 3 3, edgeOf 1 4 3, edgeOf 1 5 3] [0, 1, 2, 3, 4, 5]
    [0, 1, 2, 3, 4, 5] (some [1]) none

/-- `FakeIonTraps2Trits`, fake_traps2three.py 44-55 = 57-68 -/
def tritTrap : LGraph := create [edgeOf 1 0 3, edgeOf 0 2 3] [0, 1, 2] [0, 2, 1] (some [1]) none

/-- `Innsbruck01`, innsbruck_01.py 45-54 = 56-66 -/
def innsbruck : LGraph := create [carrierEdge 0 1 3 0, carrierEdge 1 2 4 1] [0, 1, 2] [0, 1, 2] (some [1]) none

/-- `energy_level_graphs` -/
def sixTraps (n : Nat) : List (Option LGraph) := List.replicate n (some sixTrap)

def tritTraps : List (Option LGraph) := List.replicate 2 (some tritTrap)

def innsbruck01 : List (Option LGraph) := List.replicate 2 (some innsbruck)

end Qudits.LGraph
