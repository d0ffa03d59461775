/-
Independent specification of the extended local lattice: coordinates relative to the first local site.
-/
import Verif.Geometry.Model

namespace Nissa.Lx

/-- `x` lies inside the local box along `mu` -/
def Inside (g : Geo) (x : ICoords) (mu : Dir) : Prop := 0 ≤ x mu ∧ x mu < g.loc mu

instance (g : Geo) (x : ICoords) (mu : Dir) : Decidable (Inside g x mu) := by
  unfold Inside; infer_instance

/-- Coordinates of the local box enlarged by one site on both sides of each direction split among ranks -/
def Ext (g : Geo) (x : ICoords) : Prop :=
  ∀ mu, Inside g x mu ∨ (1 < g.R mu ∧ (x mu = -1 ∨ x mu = g.loc mu))

instance (g : Geo) (x : ICoords) : Decidable (Ext g x) := by
  unfold Ext; infer_instance

/-- In how many directions `x` is outside of the local box -/
def nOut (g : Geo) (x : ICoords) : Nat := dirs.countP (fun mu => ¬ Inside g x mu)

/-- Global coordinates (on the torus) of the site with relative coordinates `x` on the rank with coordinates `r` -/
def torus (g : Geo) (r : Coords) (x : ICoords) : Coords := fun mu => ((x mu + r mu * g.loc mu) % g.L mu).toNat

/-- `r` is a rank of the grid -/
def IsRank (g : Geo) (r : Coords) : Prop := ∀ mu, r mu < g.R mu

/-- one step along `mu` -/
def shift (x : ICoords) (mu : Dir) (d : Int) : ICoords := Function.update x mu (x mu + d)

/-- one step along `mu` on the torus -/
def tshift (g : Geo) (c : Coords) (mu : Dir) (d : Int) : Coords :=
  Function.update c mu (((c mu : Int) + d) % g.L mu).toNat

end Nissa.Lx
