import Verif.Ib.Vertex
import Mathlib.Analysis.SpecialFunctions.Trigonometric.Deriv
import Mathlib.Analysis.Calculus.Deriv.Mul
import Mathlib.Analysis.Calculus.Deriv.Add
import Mathlib.Analysis.Calculus.Deriv.Comp
import Mathlib.Analysis.SpecialFunctions.ExpDeriv
import Mathlib.Analysis.Normed.Module.FiniteDimension

/-! # C67: the vertices are the derivatives of the Dirac operator -/

set_option linter.all false

namespace Nissa.Vertex
open Nissa.Lx Nissa.Sten Nissa.Su3f Nissa.Gauge Nissa.Gamma Nissa.StD Nissa.Wilson Nissa.Contr Nissa.EoP Matrix Complex
open Nissa.Clv (As2t)

noncomputable section

/-! ### Specification -/

/-- transport of a field from the next site, with the matrix of the Wilson term -/
def fwHop (g : Geo) (U : Coords → Quad) (G : Matrix (Fin 4) (Fin 4) ℂ) (mu : Dir) (x : Coords → SpCol) (c : Coords) : SpCol :=
  spinMul (G - γdir mu) (colMul (U c mu) (x (tshift g c mu 1)))

/-- transport from the previous site -/
def bwHop (g : Geo) (U : Coords → Quad) (G : Matrix (Fin 4) (Fin 4) ℂ) (mu : Dir) (x : Coords → SpCol) (c : Coords) : SpCol :=
  spinMul (G + γdir mu) (colMul (U (tshift g c mu (-1)) mu)ᴴ (x (tshift g c mu (-1))))

/-- the vertex: weights of the forward transport and of the backward one, each given at the beginning of the link -/
def vertex (g : Geo) (U : Coords → Quad) (G : Matrix (Fin 4) (Fin 4) ℂ) (a b : Coords → Dir → ℂ) (x : Coords → SpCol) (c : Coords) : SpCol :=
  ∑ mu : Dir, (a c mu • fwHop g U G mu x c + b (tshift g c mu (-1)) mu • bwHop g U G mu x c)

/-- restriction to a time, to all if it is `-1` -/
def atTime (t : Int) (F : Coords → SpCol) (c : Coords) : SpCol := if t = -1 ∨ ((c 0 : Nat) : Int) = t then F c else 0

/-! ### Formulas -/

theorem vertexGamma_eq (twisted : Bool) (r : Fin 2) : dense (vertexGamma twisted r) = wilsonMat twisted r := by
  have := gamma4_eq twisted false r
  rw [show (if false then Γ 5 else 1 : Matrix (Fin 4) (Fin 4) ℂ) = 1 by simp, one_mul] at this
  rw [← this]
  unfold gamma4 vertexGamma
  simp

theorem spinMul_mat_sub (M N : Matrix (Fin 4) (Fin 4) ℂ) (v : SpCol) : spinMul (M - N) v = spinMul M v - spinMul N v := by
  funext i; simp [spinMul, sub_smul, Finset.sum_sub_distrib]

theorem spinMul_mat_add (M N : Matrix (Fin 4) (Fin 4) ℂ) (v : SpCol) : spinMul (M + N) v = spinMul M v + spinMul N v := by
  funext i; simp [spinMul, add_smul, Finset.sum_add_distrib]

theorem γdir_dense (mu : Dir) : dense (baseGamma (iGammaOfMu mu)) = γdir mu := by
  have := gammaMu_eq false mu
  simpa [gammaMu] using this

theorem vertexDir_eq (Gm : DiracMatr ℂ) (ff fb : ℂ) (here dw : M3) (up dn : SpCol) (fc bc : ℂ) (mu : Dir) (out : SpCol) :
    vertexDir Gm ff fb here dw up dn fc bc mu out = out + ((fc * ff) • spinMul (dense Gm - γdir mu) (colMul here up) + (bc * fb) • spinMul (dense Gm + γdir mu) (colMul dwᴴ dn)) := by
  unfold vertexDir
  simp only [diracSpinColor_eq, γdir_dense]
  rw [spinMul_mat_sub, spinMul_mat_add, spinMul_add, spinMul_sub, spinMul_smul, spinMul_smul, spinMul_smul, spinMul_smul, spinMul_smul, spinMul_smul, spinMul_smul, spinMul_smul]
  rw [show (fun id => here *ᵥ up id) = colMul here up from rfl, show (fun id => dwᴴ *ᵥ dn id) = colMul dwᴴ dn from rfl]
  simp only [smul_smul, smul_sub, smul_add]
  abel

section
variable {g : Geo} (ok : g.Ok)
include ok

theorem onTime_eq (jc : Coords) {rc : Coords} {i : Nat} {c : Coords} (h : glbCoordOfLoclx g rc i = some c) (t : Int) : onTime g jc rc i t = decide (t = -1 ∨ ((c 0 : Nat) : Int) = t) := by
  unfold onTime; rw [h]; rfl

/-- the insertion of a vertex, on any grid of ranks -/
theorem insert_eq (ji : Nat) (jq : Quad) (jv : SpCol) (jc : Coords) (conf : Nat → Nat → Quad) (inp : Fld) (ff fb : ℂ) (Gm : DiracMatr ℂ) (curr : Coords → Nat → Dir → Bool → ℂ) (t : Int)
    (a b : Coords → Dir → ℂ)
    (ha : ∀ rk i c, IsRank g (coordOfLx rk g.R) → i < g.locVol → glbCoordOfLoclx g (coordOfLx rk g.R) i = some c → ∀ mu, curr (coordOfLx rk g.R) i mu true = a c mu)
    (hb : ∀ rk i c, IsRank g (coordOfLx rk g.R) → i < g.locVol → glbCoordOfLoclx g (coordOfLx rk g.R) i = some c → ∀ mu,
      curr (coordOfLx rk g.R) (dwT g (coordOfLx rk g.R) ji i mu) mu false = b (tshift g c mu (-1)) mu) {c : Coords} (hc : c ∈ box g.L) :
    glob g (insert_vector_vertex g ji jq jv jc conf inp ff fb Gm curr t) c =
      atTime t (vertex g (glob g conf) (dense Gm) (fun c mu => a c mu * ff) (fun c mu => b c mu * fb) (glob g inp)) c := by
  obtain ⟨rk, X, h1, h2, hr, hx, hG⟩ := lxSite ok hc
  rw [hG]
  unfold insert_vector_vertex atTime
  simp only [onTime_eq ok jc hx, decide_eq_true_eq]
  by_cases h : t = -1 ∨ ((c 0 : Nat) : Int) = t
  · rw [if_pos h, if_pos h]
    simp only [vertexDir_eq, mem_here ok jq conf hr h2 hx, mem_up ok jv ji _ hr h2 hx, mem_dw ok jv ji _ hr h2 hx, mem_dw ok jq ji _ hr h2 hx, ha rk X c hr h2 hx, hb rk X c hr h2 hx]
    rw [foldl_add', zero_add, sum_finRange]
    rfl
  · rw [if_neg h, if_neg h]

/-- **C67**.  The insertion of a photon, or of any external field, on the conserved current, on any grid of ranks: `-i/2` times the forward transport and `+i/2` times the backward one, with the
field on the link, on the directions asked and the rows of the time asked. -/
theorem C67_photon (ji : Nat) (jq : Quad) (jv : SpCol) (jc : Coords) (j1 : S1) (twisted : Bool) (r : Fin 2) (conf : Nat → Nat → Quad) (A : Nat → Nat → S1) (inp : Fld) (ds : Dir → Bool) (t : Int)
    {c : Coords} (hc : c ∈ box g.L) :
    glob g (insert_external_source g ji jq jv jc j1 twisted r conf A inp ds t) c =
      atTime t (vertex g (glob g conf) (wilsonMat twisted r) (fun c mu => if ds mu then -(I / 2) * glob g A c mu else 0) (fun c mu => if ds mu then I / 2 * glob g A c mu else 0) (glob g inp)) c := by
  unfold insert_external_source
  rw [insert_eq ok ji jq jv jc conf inp _ _ _ _ t (fun c mu => if ds mu = false then 0 else glob g A c mu) (fun c mu => if ds mu = false then 0 else glob g A c mu) ?_ ?_ hc, vertexGamma_eq]
  · congr 2
    · funext d mu
      have : (⟨0, -0.5⟩ : ℂ) = -(I / 2) := by apply Complex.ext <;> norm_num
      cases ds mu
      · simp
      · simp only [this]; simp; ring
    · funext d mu
      have : (⟨0, 0.5⟩ : ℂ) = I / 2 := by apply Complex.ext <;> norm_num
      cases ds mu
      · simp
      · simp only [this]; simp; ring
  · intro rk i d hr hi h mu
    simp only [mem_here ok j1 A hr hi h]
  · intro rk i d hr hi h mu
    simp only [mem_dw ok j1 ji A hr hi h]

/-- **C67**.  The insertion of the tadpole: `-1/4` times both transports. -/
theorem C67_tadpole (ji : Nat) (jq : Quad) (jv : SpCol) (jc : Coords) (twisted : Bool) (r : Fin 2) (conf : Nat → Nat → Quad) (inp : Fld) (tad : Dir → ℝ) (t : Int) {c : Coords} (hc : c ∈ box g.L) :
    glob g (insert_tadpole g ji jq jv jc twisted r conf inp tad t) c =
      atTime t (vertex g (glob g conf) (wilsonMat twisted r) (fun _ mu => -(tad mu : ℂ) / 4) (fun _ mu => -(tad mu : ℂ) / 4) (glob g inp)) c := by
  unfold insert_tadpole
  rw [insert_eq ok ji jq jv jc conf inp _ _ _ _ t (fun c mu => tad mu) (fun c mu => tad mu) (fun _ _ _ _ _ _ _ => rfl) (fun _ _ _ _ _ _ _ => rfl) hc, vertexGamma_eq]
  congr 2 <;> · funext d mu; push_cast; norm_num; ring

/-- **C67**.  The insertion of the conserved current: `-1/2` times the forward transport, `+1/2` the backward one. -/
theorem C67_conserved (ji : Nat) (jq : Quad) (jv : SpCol) (jc : Coords) (twisted : Bool) (r : Fin 2) (conf : Nat → Nat → Quad) (inp : Fld) (ds : Dir → Bool) (t : Int) {c : Coords} (hc : c ∈ box g.L) :
    glob g (insert_conserved_current g ji jq jv jc twisted r conf inp ds t) c =
      atTime t (vertex g (glob g conf) (wilsonMat twisted r) (fun _ mu => if ds mu then -1 / 2 else 0) (fun _ mu => if ds mu then 1 / 2 else 0) (glob g inp)) c := by
  unfold insert_conserved_current
  rw [insert_eq ok ji jq jv jc conf inp _ _ _ _ t (fun c mu => if ds mu then 1 else 0) (fun c mu => if ds mu then 1 else 0) (fun _ _ _ _ _ _ _ => rfl) (fun _ _ _ _ _ _ _ => rfl) hc, vertexGamma_eq]
  congr 2 <;> · funext d mu; cases ds mu <;> norm_num

/-- **C67**.  The insertions of a single transport: `CVECBW` inserts the forward one, `CVECFW` the backward one. -/
theorem C67_bwFw (ji : Nat) (jq : Quad) (jv : SpCol) (jc : Coords) (twisted : Bool) (r : Fin 2) (conf : Nat → Nat → Quad) (inp : Fld) (FW : Bool) (nu : Dir) (t : Int) {c : Coords} (hc : c ∈ box g.L) :
    glob g (insert_bwFw g ji jq jv jc twisted r conf inp FW nu t) c =
      atTime t (fun c => if FW then (I / 2) • bwHop g (glob g conf) (wilsonMat twisted r) nu (glob g inp) c else (-(I / 2)) • fwHop g (glob g conf) (wilsonMat twisted r) nu (glob g inp) c) c := by
  unfold insert_bwFw
  rw [insert_eq ok ji jq jv jc conf inp _ _ _ _ t (fun c mu => if mu = nu ∧ FW = false then 1 else 0) (fun c mu => if mu = nu ∧ FW = true then 1 else 0)
    (fun _ _ _ _ _ _ mu => by cases FW <;> simp) (fun _ _ _ _ _ _ mu => by cases FW <;> simp) hc, vertexGamma_eq]
  unfold atTime
  congr 1
  have e1 : (⟨0, -0.5⟩ : ℂ) = -(I / 2) := by apply Complex.ext <;> norm_num
  have e2 : (⟨0, 0.5⟩ : ℂ) = I / 2 := by apply Complex.ext <;> norm_num
  unfold vertex
  rw [e1, e2, Finset.sum_eq_single nu]
  · cases FW <;> simp
  · intro mu _ hne
    simp [hne]
  · simp

end

end

end Nissa.Vertex
