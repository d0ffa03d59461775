import Verif.Measures.Stag

/-! # C62: the staggered shifts and phases -/

set_option linter.all false

namespace Nissa.Stag
open Nissa.Lx Nissa.Sten Nissa.Su3f Nissa.Gauge Nissa.StD Nissa.Back Matrix

noncomputable section

/-! ### The orderings -/

/-- the orderings met by the loop -/
def visited : Nat → List Dir → Option (List (List Dir))
  | 0, _ => none
  | fuel + 1, l =>
    match nextPermutation l with
    | some l' => (visited fuel l').map (l :: ·)
    | none => some [l]

theorem visited_all : ∀ b : Fin 4 → Bool, ((visited 24 ((List.finRange 4).filter b)).map fun ps =>
    decide (ps.Nodup ∧ ps.length = ((List.finRange 4).filter b).length.factorial ∧ ∀ l ∈ ps, l.isPerm ((List.finRange 4).filter b) = true)) = some true := by
  decide +kernel

theorem listDir_eq (shift : Int) : listDir shift = (List.finRange 4).filter fun mu : Dir => bit shift mu := by
  have h : ∀ b : Fin 4 → Bool, (dirs.foldl (fun (l : List Dir) (mu : Dir) => if b mu then l ++ [mu] else l) []).insertionSort (· ≤ ·) = (List.finRange 4).filter b := by
    decide +kernel
  exact h fun mu : Dir => bit shift mu

theorem bits_toList (shift : Int) : (listDir shift).Perm (bits shift).toList := by
  rw [listDir_eq]
  refine (List.perm_ext_iff_of_nodup ((List.nodup_finRange 4).filter _) (Finset.nodup_toList _)).2 fun mu => ?_
  simp [bits]

theorem visited_listDir (shift : Int) : ∃ ps, visited 24 (listDir shift) = some ps ∧ ps.Perm (bits shift).toList.permutations := by
  have h := visited_all fun mu : Dir => bit shift mu
  rw [← listDir_eq] at h
  cases hv : visited 24 (listDir shift) with
  | none => rw [hv] at h; cases h
  | some ps =>
    rw [hv] at h
    simp only [Option.map_some, Option.some.injEq, decide_eq_true_eq] at h
    obtain ⟨h1, h2, h3⟩ := h
    refine ⟨ps, rfl, List.Perm.trans ?_ (bits_toList shift).permutations⟩
    refine List.Subperm.perm_of_length_le (List.subperm_of_subset h1 fun l hl => ?_) ?_
    · exact List.mem_permutations.2 (List.isPerm_iff.1 (h3 l hl))
    · rw [List.length_permutations, h2]

theorem permLoop_visited (body : List Dir → PermState → Option PermState) : ∀ (fuel : Nat) (l : List Dir) (s : PermState) (ps : List (List Dir)),
    visited fuel l = some ps → permLoop body fuel l s = ps.foldlM (fun s l => body l s) s
  | 0, l, s, ps, h => by cases h
  | fuel + 1, l, s, ps, h => by
    unfold visited at h
    unfold permLoop
    cases hn : nextPermutation l with
    | none =>
      rw [hn] at h
      simp only [Option.some.injEq] at h
      subst h
      simp [hn]
    | some l' =>
      rw [hn] at h
      simp only [Option.map_eq_some_iff] at h
      obtain ⟨ps', h1, rfl⟩ := h
      simp only [List.foldlM_cons]
      refine bind_congr fun s' => ?_
      exact permLoop_visited body fuel l' s' ps' h1

theorem length_permutations_bits (shift : Int) : ((bits shift).toList.permutations).length = (bits shift).card.factorial := by
  rw [List.length_permutations, Finset.length_toList]

section
variable {g : Geo} (ok : g.Ok)
include ok

theorem symShift_congr {U U' : Coords → Quad} {mu : Dir} {x y : Coords → Col} (hU : ∀ c ∈ box g.L, U c = U' c) (h : ∀ c ∈ box g.L, x c = y c) :
    ∀ c ∈ box g.L, symShift g U mu x c = symShift g U' mu y c := by
  intro c hc
  have h1 := tshift_mem_box ok hc mu 1
  have h2 := tshift_mem_box ok hc mu (-1)
  unfold symShift
  rw [hU c hc, hU _ h2, h _ h1, h _ h2]

theorem pathShift_congr {U U' : Coords → Quad} (hU : ∀ c ∈ box g.L, U c = U' c) (l : List Dir) : ∀ {x y : Coords → Col} (_ : ∀ c ∈ box g.L, x c = y c),
    ∀ c ∈ box g.L, pathShift g U l x c = pathShift g U' l y c := by
  unfold pathShift
  induction l with
  | nil => intro x y h; exact h
  | cons mu l ih => intro x y h; exact ih (symShift_congr ok hU h)

variable (eo : EoOk g)
include eo

/-- C62: a covariant shift on any grid of ranks, in the three orientations; it crashes exactly when asked to work in place. -/
theorem C62_covariant_shift (ji : Nat) (jq : Quad) (jv : Col) (conf : EoConf) (mu : Dir) (inp : EoCol) (side : Side) :
    apply_covariant_shift g ji jq jv true conf mu inp side = none ∧
    ∃ out, apply_covariant_shift g ji jq jv false conf mu inp side = some out ∧ ∀ c ∈ box g.L, globEo g out c =
      match side with
      | .UP => globEo g conf c mu *ᵥ globEo g inp (tshift g c mu 1)
      | .DW => (globEo g conf (tshift g c mu (-1)) mu)ᴴ *ᵥ globEo g inp (tshift g c mu (-1))
      | .BOTH => symShift g (globEo g conf) mu (globEo g inp) c := by
  refine ⟨rfl, _, rfl, fun c hc => ?_⟩
  obtain ⟨rk, e, l, h1, h2, hr, hl, hx, hF, -⟩ := eoSiteOf ok eo hc
  have hp := par_lt ok eo c
  rw [hF]
  simp only
  rw [eoMem_here ok eo jq conf hr hp h2 hl hx, eoMem_up ok eo jv ji inp hr hp h2 hl hx mu, eoMem_dw ok eo jv ji inp hr hp h2 hl hx mu,
    eoMem_dw ok eo jq ji conf hr hp h2 hl hx mu]
  cases side
  · simp
  · simp
  · simp only [or_false, true_or, if_true, symShift, zero_add]
    norm_num

theorem single_perm_eq (ji : Nat) (jq : Quad) (jv : Col) (conf : EoConf) (l : List Dir) (hl : l ≠ []) (inp out0 : EoCol) :
    ∃ r, apply_shift_op_single_perm g ji jq jv false conf l inp out0 = some r ∧ ∀ c ∈ box g.L, globEo g r.2 c = pathShift g (globEo g conf) l (globEo g inp) c := by
  unfold apply_shift_op_single_perm
  have gen : ∀ (l : List Dir) (n : Nat) (s : EoCol × EoCol) (v : Coords → Col), 0 < n → (∀ c ∈ box g.L, globEo g s.2 c = v c) →
      ∃ r, (l.zipIdx n).foldlM (fun (s : EoCol × EoCol) (mi : Dir × Nat) =>
        (apply_covariant_shift g ji jq jv false conf mi.1 (if mi.2 ≠ 0 then s.2 else s.1) .BOTH).map fun out => ((if mi.2 ≠ 0 then s.2 else s.1), out)) s = some r ∧
        ∀ c ∈ box g.L, globEo g r.2 c = pathShift g (globEo g conf) l v c := by
    intro l
    induction l with
    | nil => intro n s v hn hs; exact ⟨s, rfl, hs⟩
    | cons mu l ih =>
      intro n s v hn hs
      obtain ⟨-, out, ho, hg⟩ := C62_covariant_shift ok eo ji jq jv conf mu s.2 .BOTH
      obtain ⟨r, hr, hr2⟩ := ih (n + 1) (s.2, out) (symShift g (globEo g conf) mu v) (by omega) (fun c hc => by
        rw [hg c hc]; exact symShift_congr ok (fun _ _ => rfl) hs c hc)
      refine ⟨r, ?_, hr2⟩
      rw [List.zipIdx_cons, List.foldlM_cons, ← hr]
      have : n ≠ 0 := by omega
      simp only [this, ne_eq, not_false_eq_true, if_true, ho, Option.map_some]
      rfl
  cases l with
  | nil => exact absurd rfl hl
  | cons mu l =>
    obtain ⟨-, out, ho, hg⟩ := C62_covariant_shift ok eo ji jq jv conf mu inp .BOTH
    obtain ⟨r, hr, hr2⟩ := gen l 1 (inp, out) (symShift g (globEo g conf) mu (globEo g inp)) (by omega) hg
    refine ⟨r, ?_, hr2⟩
    rw [List.zipIdx_cons, List.foldlM_cons, ← hr]
    simp only [ne_eq, not_true_eq_false, if_false, ho, Option.map_some]
    rfl

theorem loop_eq (ji : Nat) (jq : Quad) (jv : Col) (conf : EoConf) (inp : EoCol) (ps : List (List Dir)) (hps : ∀ l ∈ ps, l ≠ []) :
    ∀ s : PermState, ∃ s', ps.foldlM (fun s l => permBody g ji jq jv false conf inp l s) s = some s' ∧ s'.nperm = s.nperm + ps.length ∧
      ∀ c ∈ box g.L, globEo g s'.out c = globEo g s.out c + (ps.map fun l => pathShift g (globEo g conf) l (globEo g inp) c).sum := by
  induction ps with
  | nil => intro s; exact ⟨s, rfl, rfl, fun c _ => by simp⟩
  | cons l ps ih =>
    intro s
    obtain ⟨r, hr, hr2⟩ := single_perm_eq ok eo ji jq jv conf l (hps l (by simp)) inp s.single
    obtain ⟨s', h1, h2, h3⟩ := ih (fun l hl => hps l (by simp [hl])) ⟨fun rk p e => s.out rk p e + r.2 rk p e, r.2, s.nperm + 1⟩
    refine ⟨s', ?_, ?_, fun c hc => ?_⟩
    · rw [List.foldlM_cons, ← h1]
      unfold permBody
      rw [hr]; rfl
    · rw [h2]; simp; omega
    · rw [h3 c hc, List.map_cons, List.sum_cons, ← add_assoc, ← hr2 c hc]
      rfl

/-- C62: `apply_shift_op` on any grid of ranks, for every mask of directions, whatever the content of the scratch fields: the average over the
orderings of the directions of the covariant shifts, with the links multiplied by the background field.  For no direction the field is copied.  It
crashes when directions are asked and the two scratch fields are the same one. -/
theorem C62_shift_op (ji : Nat) (jq : Quad) (jv : Col) (jc : Coords) (junk : Dir → Int) (conf : EoConf) (u1b : EoU1) (shift : Int) (inp single0 : EoCol) :
    (bits shift ≠ ∅ → apply_shift_op g ji jq jv jc junk true conf u1b shift inp single0 = none) ∧
    ∃ out, apply_shift_op g ji jq jv jc junk false conf u1b shift inp single0 = some out ∧ ∀ c ∈ box g.L,
      globEo g out c = shiftOp g (fun c mu => globEo g u1b c mu • globEo g conf c mu) (bits shift) (globEo g inp) c := by
  have hlen : (listDir shift).length = (bits shift).card := by rw [(bits_toList shift).length_eq, Finset.length_toList]
  constructor
  · intro hne
    unfold apply_shift_op
    have : (listDir shift).length ≠ 0 := by rw [hlen]; exact fun h => hne (Finset.card_eq_zero.1 h)
    simp only [this, ne_eq, not_false_eq_true, if_true]
    cases hL : listDir shift with
    | nil => rw [hL] at this; simp at this
    | cons a l => 
      have : ∀ (inp out0 : EoCol) conf, apply_shift_op_single_perm g ji jq jv true conf (a :: l) inp out0 = none := by
        intro inp out0 conf
        unfold apply_shift_op_single_perm
        rw [List.zipIdx_cons, List.foldlM_cons]
        rfl
      unfold permLoop permBody
      rw [this]; rfl
  · unfold apply_shift_op
    by_cases h0 : (listDir shift).length = 0
    · refine ⟨inp, by simp [h0], fun c hc => ?_⟩
      have : bits shift = ∅ := Finset.card_eq_zero.1 (by rw [← hlen, h0])
      rw [this]
      simp [shiftOp, pathShift]
    · simp only [h0, ne_eq, not_false_eq_true, if_true]
      obtain ⟨ps, hv, hp⟩ := visited_listDir shift
      rw [permLoop_visited _ _ _ _ ps hv]
      obtain ⟨s, h1, h2, h3⟩ := loop_eq ok eo ji jq jv (add_or_rem_backfield_eo g ji jc junk conf false u1b true) inp ps (fun l hl => by
        have := hp.mem_iff.1 hl
        rw [List.mem_permutations] at this
        intro h
        subst h
        have := this.length_eq
        rw [Finset.length_toList] at this
        simp at this
        omega) ⟨fun _ _ _ => 0, single0, 0⟩
      refine ⟨_, by rw [h1]; rfl, fun c hc => ?_⟩
      have hg : globEo g (fun rk p e => ((1 : ℝ) / (s.nperm : ℝ)) • s.out rk p e) c = ((1 : ℝ) / (s.nperm : ℝ)) • globEo g s.out c := rfl
      rw [hg, h3 c hc, h2]
      have hz : globEo g (fun _ _ _ => (0 : Col)) c = 0 := rfl
      rw [show (⟨fun _ _ _ => 0, single0, 0⟩ : PermState).out = fun _ _ _ => 0 from rfl, hz, zero_add]
      unfold shiftOp
      rw [zero_add, hp.length_eq, length_permutations_bits]
      congr 1
      rw [(hp.map _).sum_eq]
      congr 1

/-- C62: the phases, on any grid of ranks: the sign is the parity of the sum of the coordinates selected by the mask -/
theorem C62_phases (ji : Nat) (jc : Coords) (source : EoCol) (mask : Int) {c : Coords} (hc : c ∈ box g.L) :
    globEo g (put_stag_phases g ji jc source mask) c = sgn (bits mask) c • globEo g source c := by
  obtain ⟨rk, e, l, -, -, -, h1, h2, hF, -⟩ := eoSiteOf ok eo hc
  rw [hF, hF]
  unfold put_stag_phases
  rw [eoCoord_eq ji jc h1 h2]
  congr 1
  unfold siteSign sgn bits
  rw [Finset.sum_filter, Fin.sum_univ_four]
  simp only [dirs, List.foldl_cons, List.foldl_nil, one_mul]
  have e : ∀ mu : Dir, (((1 - 2 * (if bit mask mu = true ∧ c mu % 2 = 1 then 1 else 0) : Int)) : ℝ) = (-1) ^ (if bit mask mu = true then c mu else 0) := by
    intro mu
    by_cases hb : bit mask mu = true
    · simp only [hb, true_and, if_true]
      rcases Nat.mod_two_eq_zero_or_one (c mu) with h | h
      · rw [if_neg (by omega), (Nat.even_iff.2 h).neg_one_pow]; norm_num
      · rw [if_pos h, (Nat.odd_iff.2 h).neg_one_pow]; norm_num
    · simp [hb]
  rw [pow_add, pow_add, pow_add, ← e, ← e, ← e, ← e]
  push_cast
  rfl

end

end

end Nissa.Stag
