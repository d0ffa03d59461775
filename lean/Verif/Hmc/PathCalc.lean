import Verif.Hmc.GaugeForce
import Mathlib.Analysis.Calculus.Deriv.Mul
import Mathlib.Analysis.Calculus.Deriv.Add
import Mathlib.Analysis.Calculus.Deriv.Star
import Mathlib.Analysis.Complex.RealDeriv

/-! # Calculus of the products of links along closed paths

Sum over the lattice of the trace of the product of the links around a loop: its derivative is the sum, on all the links, of the
variation of the link times the staples obtained cutting the loop. -/

set_option linter.all false

namespace Nissa.GForce
open Nissa.Lx Nissa.Sten Nissa.Su3f Nissa.Gauge Nissa.Paths Nissa.LSm Nissa.Stap Matrix Complex

noncomputable section

/-! ### Reversed paths -/

/-- the path travelled in the opposite sense -/
def rev (l : List Move) : List Move := (l.map (fun m => (m.1, !m.2))).reverse

theorem pathEnd_append (g : Geo) (x : Coords) (l k : List Move) : pathEnd g x (l ++ k) = pathEnd g (pathEnd g x l) k := by
  induction l generalizing x with
  | nil => rfl
  | cons m l ih => obtain ⟨mu, d⟩ := m; exact ih _

theorem pathProd_append (g : Geo) (U : Coords → Quad) (x : Coords) (l k : List Move) :
    pathProd g U x (l ++ k) = pathProd g U x l * pathProd g U (pathEnd g x l) k := by
  induction l generalizing x with
  | nil => simp [pathProd, pathEnd]
  | cons m l ih =>
    obtain ⟨mu, d⟩ := m
    cases d
    · simp only [List.cons_append, pathProd, pathEnd, Bool.false_eq_true, if_false]; rw [ih, Matrix.mul_assoc]
    · simp only [List.cons_append, pathProd, pathEnd, if_true]; rw [ih, Matrix.mul_assoc]

/-- the link of a move, in the sense of the move -/
def linkOf (g : Geo) (U : Coords → Quad) (x : Coords) (m : Move) : M3 := if m.2 then U x m.1 else (U (tshift g x m.1 (-1)) m.1)ᴴ

/-- where a move leads -/
def stepOf (g : Geo) (x : Coords) (m : Move) : Coords := tshift g x m.1 (if m.2 then 1 else -1)

theorem pathProd_cons (g : Geo) (U : Coords → Quad) (x : Coords) (m : Move) (l : List Move) :
    pathProd g U x (m :: l) = linkOf g U x m * pathProd g U (stepOf g x m) l := by
  obtain ⟨mu, d⟩ := m
  cases d <;> rfl

theorem pathEnd_cons (g : Geo) (x : Coords) (m : Move) (l : List Move) : pathEnd g x (m :: l) = pathEnd g (stepOf g x m) l := rfl

section
variable {g : Geo} (ok : g.Ok)
include ok

theorem stepOf_mem {x : Coords} (hx : x ∈ box g.L) (m : Move) : stepOf g x m ∈ box g.L := tshift_mem_box ok hx _ _

theorem pathEnd_mem {x : Coords} (hx : x ∈ box g.L) (l : List Move) : pathEnd g x l ∈ box g.L := by
  induction l generalizing x with
  | nil => exact hx
  | cons m l ih => rw [pathEnd_cons]; exact ih (stepOf_mem ok hx m)

theorem stepOf_back {x : Coords} (hx : x ∈ box g.L) (m : Move) : stepOf g (stepOf g x m) (m.1, !m.2) = x := by
  obtain ⟨mu, d⟩ := m
  cases d
  · exact tshift_back ok hx mu (-1) (.inr rfl)
  · exact tshift_back ok hx mu 1 (.inl rfl)

theorem linkOf_back (U : Coords → Quad) {x : Coords} (hx : x ∈ box g.L) (m : Move) : linkOf g U (stepOf g x m) (m.1, !m.2) = (linkOf g U x m)ᴴ := by
  obtain ⟨mu, d⟩ := m
  cases d
  · simp [linkOf, stepOf]
  · simp only [linkOf, stepOf, Bool.not_true, Bool.false_eq_true, if_false, if_true]
    rw [tshift_back ok hx mu 1 (.inl rfl)]

theorem rev_cons (m : Move) (l : List Move) : rev (m :: l) = rev l ++ [(m.1, !m.2)] := by simp [rev]

theorem pathEnd_rev {x : Coords} (hx : x ∈ box g.L) (l : List Move) : pathEnd g (pathEnd g x l) (rev l) = x := by
  induction l generalizing x with
  | nil => rfl
  | cons m l ih =>
    rw [rev_cons ok, pathEnd_append, pathEnd_cons g x m l, ih (stepOf_mem ok hx m)]
    exact stepOf_back ok hx m

theorem pathProd_rev (U : Coords → Quad) {x : Coords} (hx : x ∈ box g.L) (l : List Move) :
    pathProd g U (pathEnd g x l) (rev l) = (pathProd g U x l)ᴴ := by
  induction l generalizing x with
  | nil => simp [pathProd, rev]
  | cons m l ih =>
    rw [rev_cons ok, pathProd_append, pathEnd_cons, ih (stepOf_mem ok hx m), pathEnd_rev ok (stepOf_mem ok hx m), pathProd_cons, pathProd_cons,
      linkOf_back ok U hx m, Matrix.conjTranspose_mul]
    simp [pathProd]

theorem rev_rev (l : List Move) : rev (rev l) = l := by
  simp [rev, List.map_reverse, Function.comp_def]

/-- translation of a sum over the lattice along a path -/
theorem sum_path {M : Type} [AddCommMonoid M] (l : List Move) (f : Coords → Coords → M) :
    ∑ x ∈ box g.L, f x (pathEnd g x l) = ∑ x ∈ box g.L, f (pathEnd g x (rev l)) x := by
  refine Finset.sum_bij' (i := fun x _ => pathEnd g x l) (j := fun x _ => pathEnd g x (rev l)) ?_ ?_ ?_ ?_ ?_
  · exact fun x hx => pathEnd_mem ok hx l
  · exact fun x hx => pathEnd_mem ok hx _
  · exact fun x hx => pathEnd_rev ok hx l
  · intro x hx
    have := pathEnd_rev ok hx (rev l)
    rwa [rev_rev ok] at this
  · intro x hx
    rw [pathEnd_rev ok hx l]

end

/-! ### Variation of the product along a path -/

/-- first variation of the product along a path, when the links vary of `V` -/
def pathVar (g : Geo) (U V : Coords → Quad) : Coords → List Move → M3
  | _, [] => 0
  | x, m :: l => linkOf g V x m * pathProd g U (stepOf g x m) l + linkOf g U x m * pathVar g U V (stepOf g x m) l

/-- entrywise derivative of a curve of matrices -/
def DerivM (f : ℝ → M3) (f' : M3) (t : ℝ) : Prop := ∀ i j, HasDerivAt (fun s => f s i j) (f' i j) t

theorem DerivM.mul {f k : ℝ → M3} {f' k' : M3} {t : ℝ} (hf : DerivM f f' t) (hk : DerivM k k' t) :
    DerivM (fun s => f s * k s) (f' * k t + f t * k') t := by
  intro i j
  have : HasDerivAt (fun s => ∑ c, f s i c * k s c j) (∑ c, (f' i c * k t c j + f t i c * k' c j)) t :=
    HasDerivAt.fun_sum (fun c _ => (hf i c).mul (hk c j))
  rw [Matrix.add_apply, Matrix.mul_apply, Matrix.mul_apply, ← Finset.sum_add_distrib]
  exact this

theorem DerivM.dag {f : ℝ → M3} {f' : M3} {t : ℝ} (hf : DerivM f f' t) : DerivM (fun s => (f s)ᴴ) f'ᴴ t :=
  fun i j => (hf j i).star

theorem DerivM.add {f k : ℝ → M3} {f' k' : M3} {t : ℝ} (hf : DerivM f f' t) (hk : DerivM k k' t) : DerivM (fun s => f s + k s) (f' + k') t :=
  fun i j => (hf i j).add (hk i j)

theorem DerivM.const (A : M3) (t : ℝ) : DerivM (fun _ => A) 0 t := fun i j => hasDerivAt_const t _

theorem DerivM.reTr {f : ℝ → M3} {f' : M3} {t : ℝ} (hf : DerivM f f' t) : HasDerivAt (fun s => (f s).trace.re) f'.trace.re t := by
  have h : HasDerivAt (fun s => ∑ i, f s i i) (∑ i, f' i i) t := HasDerivAt.fun_sum (fun i _ => hf i i)
  exact (Complex.reCLM.hasFDerivAt.comp_hasDerivAt t h)

section
variable {g : Geo} (ok : g.Ok)
include ok

theorem linkOf_deriv {U : ℝ → Coords → Quad} {V : Coords → Quad} {t : ℝ} (h : ∀ x ∈ box g.L, ∀ mu, DerivM (fun s => U s x mu) (V x mu) t)
    {x : Coords} (hx : x ∈ box g.L) (m : Move) : DerivM (fun s => linkOf g (U s) x m) (linkOf g V x m) t := by
  obtain ⟨mu, d⟩ := m
  cases d
  · exact (h _ (tshift_mem_box ok hx mu (-1)) mu).dag
  · exact h _ hx mu

/-- the product along a path is differentiable with the links -/
theorem pathProd_deriv {U : ℝ → Coords → Quad} {V : Coords → Quad} {t : ℝ} (h : ∀ x ∈ box g.L, ∀ mu, DerivM (fun s => U s x mu) (V x mu) t)
    {x : Coords} (hx : x ∈ box g.L) (l : List Move) : DerivM (fun s => pathProd g (U s) x l) (pathVar g (U t) V x l) t := by
  induction l generalizing x with
  | nil => exact DerivM.const 1 t
  | cons m l ih =>
    have := (linkOf_deriv ok h hx m).mul (ih (stepOf_mem ok hx m))
    simp only [pathProd_cons]
    exact this

/-- Staples of a loop: for each of its links, the rest of the loop as a path going along the link (`pre` is the part already travelled) -/
def cuts (pre : List Move) : List Move → List (Dir × List Move)
  | [] => []
  | m :: l => (m.1, if m.2 then rev (l ++ pre) else l ++ pre) :: cuts (pre ++ [m]) l

omit ok in
theorem reTr_dag (M : M3) : Mᴴ.trace.re = M.trace.re := by
  rw [Matrix.trace_conjTranspose]; simp

/-- sum over the lattice of the variation of a part of a loop -/
theorem sum_var (U V : Coords → Quad) (l : List Move) : ∀ (pre : List Move) (hcl : ∀ x ∈ box g.L, pathEnd g x (pre ++ l) = x),
    ∑ x ∈ box g.L, (pathProd g U x pre * pathVar g U V (pathEnd g x pre) l).trace.re =
      ∑ x ∈ box g.L, ((cuts pre l).map (fun c => (V x c.1 * (pathProd g U x c.2)ᴴ).trace.re)).sum := by
  induction l with
  | nil => intro pre _; simp [pathVar, cuts]
  | cons m l ih =>
    intro pre hcl
    have e1 : ∀ x ∈ box g.L, (pathProd g U x pre * pathVar g U V (pathEnd g x pre) (m :: l)).trace.re =
        (linkOf g V (pathEnd g x pre) m * (pathProd g U (stepOf g (pathEnd g x pre) m) l * pathProd g U x pre)).trace.re +
        (pathProd g U x (pre ++ [m]) * pathVar g U V (pathEnd g x (pre ++ [m])) l).trace.re := by
      intro x hx
      rw [pathVar, Matrix.mul_add, Matrix.trace_add, Complex.add_re, pathProd_append, pathEnd_append]
      congr 1
      · rw [Matrix.trace_mul_comm, Matrix.mul_assoc]
      · simp only [pathProd_cons, pathEnd_cons, pathProd, Matrix.mul_one, Matrix.mul_assoc]
        rfl
    rw [Finset.sum_congr rfl e1, Finset.sum_add_distrib, ih (pre ++ [m]) (by intro x hx; rw [List.append_assoc]; exact hcl x hx)]
    simp only [cuts, List.map_cons, List.sum_cons]
    rw [Finset.sum_add_distrib]
    congr 1
    -- translate to the starting point of the link
    rw [sum_path ok pre (fun x y => (linkOf g V y m * (pathProd g U (stepOf g y m) l * pathProd g U x pre)).trace.re)]
    have e2 : ∀ y ∈ box g.L, (linkOf g V y m * (pathProd g U (stepOf g y m) l * pathProd g U (pathEnd g y (rev pre)) pre)).trace.re =
        (linkOf g V y m * pathProd g U (stepOf g y m) (l ++ pre)).trace.re := by
      intro y hy
      have hz := pathEnd_mem ok hy (rev pre)
      have hy2 : pathEnd g (pathEnd g y (rev pre)) pre = y := by
        have := pathEnd_rev ok hy (rev pre)
        rwa [rev_rev ok] at this
      have := hcl _ hz
      rw [pathEnd_append, hy2, pathEnd_cons] at this
      rw [pathProd_append, this]
    rw [Finset.sum_congr rfl e2]
    have hend : ∀ y ∈ box g.L, pathEnd g (stepOf g y m) (l ++ pre) = y := by
      intro y hy
      have hz := pathEnd_mem ok hy (rev pre)
      have hy2 : pathEnd g (pathEnd g y (rev pre)) pre = y := by
        have := pathEnd_rev ok hy (rev pre)
        rwa [rev_rev ok] at this
      have := hcl _ hz
      rw [pathEnd_append, hy2, pathEnd_cons] at this
      rw [pathEnd_append, this, hy2]
    obtain ⟨mu, d⟩ := m
    cases d
    · -- backward: the link starts from the arrival
      simp only [Bool.false_eq_true, if_false]
      have e3 : ∀ y ∈ box g.L, (linkOf g V y (mu, false) * pathProd g U (stepOf g y (mu, false)) (l ++ pre)).trace.re =
          (V (tshift g y mu (-1)) mu * (pathProd g U (tshift g y mu (-1)) (l ++ pre))ᴴ).trace.re := by
        intro y hy
        rw [← reTr_dag, Matrix.conjTranspose_mul, Matrix.trace_mul_comm]
        simp [linkOf, stepOf]
      rw [Finset.sum_congr rfl e3]
      rw [sum_shift ok mu (.inr rfl) (fun _ z => (V z mu * (pathProd g U z (l ++ pre))ᴴ).trace.re)]
    · simp only [if_true]
      refine Finset.sum_congr rfl (fun y hy => ?_)
      have := pathProd_rev ok U (stepOf_mem ok hy (mu, true)) (l ++ pre)
      rw [hend y hy] at this
      rw [this, Matrix.conjTranspose_conjTranspose]
      simp [linkOf]

/-- Derivative of the sum over the lattice of the real trace of a loop: the variation of each link times its staples -/
theorem loop_deriv {U : ℝ → Coords → Quad} {V : Coords → Quad} {t : ℝ} (h : ∀ x ∈ box g.L, ∀ mu, DerivM (fun s => U s x mu) (V x mu) t)
    (l : List Move) (hcl : ∀ x ∈ box g.L, pathEnd g x l = x) :
    HasDerivAt (fun s => ∑ x ∈ box g.L, (pathProd g (U s) x l).trace.re)
      (∑ x ∈ box g.L, ((cuts [] l).map (fun c => (V x c.1 * (pathProd g (U t) x c.2)ᴴ).trace.re)).sum) t := by
  have := sum_var ok (U t) V l [] (by simpa using hcl)
  simp only [pathProd, pathEnd, Matrix.one_mul] at this
  rw [← this]
  exact HasDerivAt.fun_sum (fun x hx => (pathProd_deriv ok h hx l).reTr)

end

end

end Nissa.GForce
