/-
C83: the momenta kept by the Fourier filter.
-/
import Verif.Ib.MomFilter
import Mathlib.Tactic.Ring
import Mathlib.Tactic.FinCases
import Mathlib.Tactic.FieldSimp
import Mathlib.Tactic.NormNum
import Mathlib.Tactic.Linarith

set_option linter.all false

namespace Nissa.MomF
open Nissa.Lx

/-! ### specification -/

/-- twice the lattice momentum, in units of `π/L`: `2k+bc` -/
def twice (anti : Bool) (k : ICoords) (mu : Dir) : Int := 2 * k mu + (if mu = 0 ∧ anti = true then 1 else 0)

/-- `q` labels the same momentum as `k` apart from the sign of some components: for each direction, `2q+bc` and plus or minus `2k+bc`
differ by a multiple of `2L` -/
def SameUpToSigns (s : Coords) (anti : Bool) (q : Coords) (k : ICoords) : Prop :=
  ∀ mu, (2 * (s mu : Int)) ∣ twice anti (fun nu => (q nu : Int)) mu - twice anti k mu ∨
    (2 * (s mu : Int)) ∣ twice anti (fun nu => (q nu : Int)) mu + twice anti k mu

/-- the democratic cut on the sines of the components `π(2k+bc)/L` of the momentum -/
def Cut (s : Coords) (anti : Bool) (p4max : ℝ) (k : ICoords) : Prop :=
  let w : Dir → ℝ := fun mu => Real.sin (Real.pi * (twice anti k mu : ℝ) / (s mu : ℝ))
  let p2 := w 0 ^ 2 + w 1 ^ 2 + w 2 ^ 2 + w 3 ^ 2
  let p4 := w 0 ^ 4 + w 1 ^ 4 + w 2 ^ 4 + w 3 ^ 4
  p2 ≠ 0 ∧ p4 / p2 ^ 2 < p4max

/-- the momenta a list of ranges asks for: points inside the lattice which, up to signs, lie in a range and satisfy its cut -/
def Wanted (s : Coords) (anti : Bool) (ranges : List Range) (q : Coords) : Prop :=
  (∀ mu, q mu < s mu) ∧ ∃ r ∈ ranges, ∃ k : ICoords, (∀ mu, r.offs mu ≤ k mu ∧ k mu < r.offs mu + r.width mu) ∧
    Cut s anti r.p4max k ∧ SameUpToSigns s anti q k

/-- what rank `rank` has to send if momentum number `i` of the list goes to position `i` of rank 0: the scattering list holds
pairs (local site, nranks*position+destination rank) -/
def slOf (g : Geo) (rank : Nat) (ms : List Coords) : List (Nat × Nat) :=
  ms.zipIdx.filterMap fun qi =>
    if rank = (getLoclxAndRankOfCoords g qi.1).1 then some ((getLoclxAndRankOfCoords g qi.1).2, qi.2 * g.nranks) else none

/-- a point of the lattice as a vector of integers -/
def intc (q : Coords) : ICoords := fun mu => (q mu : Int)

/-! ### the set of momenta as the loops build it -/

open Classical in
noncomputable def cands (g : Geo) (anti : Bool) (ranges : List Range) : List ICoords :=
  ranges.flatMap fun r => (List.range (volOfLx r.width)).flatMap fun i =>
    if passes g.L anti r.p4max (rangePoint g.L r i) then (List.range 16).map (cmir g.L anti (rangePoint g.L r i)) else []

theorem filter_eq (g : Geo) (anti : Bool) (rank : Nat) (fout : Bool) (ranges : List Range) :
    filterFromRange g anti rank fout ranges = (cands g anti ranges).foldl (visit g rank fout) ⟨[], [], []⟩ := by
  unfold filterFromRange cands
  rw [List.foldl_flatMap]
  congr 1
  funext st r
  rw [List.foldl_flatMap]
  congr 1
  funext st i
  split
  · rw [List.foldl_map]
  · rfl

def Box (s : Coords) (c : ICoords) : Prop := ∀ mu, 0 ≤ c mu ∧ c mu < s mu

theorem natc_lt {s : Coords} {c : ICoords} (h : Box s c) (mu : Dir) : natc c mu < s mu := by
  have := h mu; unfold natc; omega

theorem intc_natc {s : Coords} {c : ICoords} (h : Box s c) : intc (natc c) = c := by
  funext mu; have := h mu; unfold intc natc; omega

theorem lx_inj {s x y : Coords} (hx : ∀ mu, x mu < s mu) (hy : ∀ mu, y mu < s mu) (h : lxOfCoord x s = lxOfCoord y s) : x = y := by
  rw [← (C01_coordOfLx_lxOfCoord s x hx).2, h, (C01_coordOfLx_lxOfCoord s y hy).2]

structure Inv (g : Geo) (rank : Nat) (fout : Bool) (ms : List Coords) (st : St) : Prop where
  box : ∀ q ∈ ms, ∀ mu, q mu < g.L mu
  nodup : ms.Nodup
  filt : st.filtered = ms.map (fun q => lxOfCoord q g.L)
  sl : st.sl = slOf g rank ms
  lines : st.lines = if fout then ms.map (fun q => signedCoord g.L (intc q)) else []

theorem slOf_snoc (g : Geo) (rank : Nat) (ms : List Coords) (q : Coords) :
    slOf g rank (ms ++ [q]) = if rank = (getLoclxAndRankOfCoords g q).1 then slOf g rank ms ++ [((getLoclxAndRankOfCoords g q).2, ms.length * g.nranks)]
      else slOf g rank ms := by
  unfold slOf
  rw [List.zipIdx_append, List.filterMap_append]
  by_cases h : rank = (getLoclxAndRankOfCoords g q).1 <;> simp [h]

theorem mem_filt {g : Geo} {rank : Nat} {fout : Bool} {ms : List Coords} {st : St} (I : Inv g rank fout ms st) {q : Coords} (hq : ∀ mu, q mu < g.L mu) :
    lxOfCoord q g.L ∈ st.filtered ↔ q ∈ ms := by
  rw [I.filt, List.mem_map]
  constructor
  · rintro ⟨p, hp, e⟩; rw [← lx_inj (I.box p hp) hq e]; exact hp
  · intro h; exact ⟨q, h, rfl⟩

theorem visit_inv {g : Geo} {rank : Nat} {fout : Bool} {ms : List Coords} {st : St} (I : Inv g rank fout ms st) {c : ICoords} (hc : Box g.L c) :
    ∃ ms', Inv g rank fout ms' (visit g rank fout st c) ∧ ∀ q, q ∈ ms' ↔ q ∈ ms ∨ q = natc c := by
  have hb := natc_lt hc
  unfold visit
  dsimp only
  by_cases h : lxOfCoord (natc c) g.L ∈ st.filtered
  · rw [if_pos h]
    refine ⟨ms, I, fun q => ⟨Or.inl, ?_⟩⟩
    rintro (h' | rfl)
    · exact h'
    · exact (mem_filt I hb).1 h
  · rw [if_neg h]
    have hn : natc c ∉ ms := fun h' => h ((mem_filt I hb).2 h')
    have hl : st.filtered.length = ms.length := by rw [I.filt, List.length_map]
    refine ⟨ms ++ [natc c], ⟨?_, ?_, ?_, ?_, ?_⟩, fun q => by simp⟩
    · intro q hq
      rcases List.mem_append.1 hq with h' | h'
      · exact I.box q h'
      · rw [List.mem_singleton.1 h']; exact hb
    · rw [List.nodup_append]
      refine ⟨I.nodup, by simp, ?_⟩
      intro a ha b hb' e
      rw [List.mem_singleton.1 hb'] at e
      exact hn (e ▸ ha)
    · show st.filtered ++ _ = _
      rw [I.filt]; simp
    · show (if rank = _ then _ else _) = _
      rw [slOf_snoc, I.sl, hl]
    · show (if fout = true then _ else _) = _
      rw [I.lines]
      cases fout <;> simp [intc_natc hc]

theorem fold_inv {g : Geo} {rank : Nat} {fout : Bool} : ∀ (cs : List ICoords) {ms : List Coords} {st : St}, Inv g rank fout ms st →
    (∀ c ∈ cs, Box g.L c) → ∃ ms', Inv g rank fout ms' (cs.foldl (visit g rank fout) st) ∧ ∀ q, q ∈ ms' ↔ q ∈ ms ∨ ∃ c ∈ cs, q = natc c
  | [], ms, st, I, _ => ⟨ms, I, by simp⟩
  | c :: cs, ms, st, I, hb => by
    obtain ⟨m1, I1, h1⟩ := visit_inv I (hb c (by simp))
    obtain ⟨m2, I2, h2⟩ := fold_inv cs I1 (fun d hd => hb d (by simp [hd]))
    refine ⟨m2, I2, fun q => ?_⟩
    rw [h2, h1]
    simp only [List.mem_cons, exists_eq_or_imp, or_assoc]

/-! ### mirrored coordinates -/

theorem mirr_spec {s : Coords} {mu : Dir} (hs : 0 < s mu) {c : Int} (h1 : -(s mu : Int) < c) (h2 : c ≤ s mu) (flip : Bool) :
    mirrorizedCoord s c mu flip = (if flip then -c else c) % (s mu : Int) := by
  have hs' : (0 : Int) < s mu := by exact_mod_cast hs
  unfold mirrorizedCoord
  cases flip
  · simp only [Bool.false_eq_true, if_false]
    rw [Int.tmod_eq_emod_of_nonneg (by linarith)]
    rw [show (s mu : Int) + (1 - 2 * 0) * c = c + (s mu : Int) by ring, Int.add_emod_right]
  · simp only [if_true]
    rw [Int.tmod_eq_emod_of_nonneg (by linarith)]
    rw [show (s mu : Int) + (1 - 2 * 1) * c = -c + (s mu : Int) by ring, Int.add_emod_right]

theorem tmod_range {k : Int} {n : Nat} (hn : 0 < n) : -(n : Int) < k.tmod n ∧ k.tmod n < n := by
  have hn' : (0 : Int) < n := by exact_mod_cast hn
  rcases Int.le_total 0 k with h | h
  · rw [Int.tmod_eq_emod_of_nonneg h]
    have := Int.emod_nonneg k hn'.ne'
    have := Int.emod_lt_of_pos k hn'
    constructor <;> linarith
  · have e : k.tmod n = -((-k).tmod n) := by rw [Int.neg_tmod, neg_neg]
    rw [e, Int.tmod_eq_emod_of_nonneg (by linarith)]
    have := Int.emod_nonneg (-k) hn'.ne'
    have := Int.emod_lt_of_pos (-k) hn'
    constructor <;> linarith

theorem tmod_dvd (k : Int) (n : Nat) : (n : Int) ∣ k - k.tmod n := by
  refine ⟨k.tdiv n, ?_⟩
  have := Int.mul_tdiv_add_tmod k n
  linarith

theorem cmir_eq {s : Coords} (hs : ∀ mu, 0 < s mu) (anti : Bool) {c : ICoords} (hc : ∀ mu, -(s mu : Int) < c mu ∧ c mu < s mu) (imir : Nat) (mu : Dir) :
    cmir s anti c imir mu = (if imir.testBit mu.val then -(c mu + bcAt anti mu) else c mu) % (s mu : Int) := by
  unfold cmir
  have h := hc mu
  by_cases h0 : mu = 0
  · subst h0
    by_cases hb : imir.testBit 0 = true
    · by_cases ha : anti = true
      · rw [mirr_spec (hs 0) (by simp [hb, ha]; omega) (by simp [hb, ha]; omega)]
        simp [hb, ha, bcAt]
      · rw [mirr_spec (hs 0) (by simp [hb, ha]; omega) (by simp [hb, ha]; omega)]
        simp [hb, ha, bcAt]
    · rw [mirr_spec (hs 0) (by simp [hb]; omega) (by simp [hb]; omega)]
      simp [hb]
  · rw [mirr_spec (hs mu) (by simp [h0]; omega) (by simp [h0]; omega)]
    simp [h0, bcAt]

theorem cmir_box {s : Coords} (hs : ∀ mu, 0 < s mu) (anti : Bool) {c : ICoords} (hc : ∀ mu, -(s mu : Int) < c mu ∧ c mu < s mu) (imir : Nat) :
    Box s (cmir s anti c imir) := by
  intro mu
  rw [cmir_eq hs anti hc]
  have hs' : (0 : Int) < s mu := by exact_mod_cast hs mu
  exact ⟨Int.emod_nonneg _ hs'.ne', Int.emod_lt_of_pos _ hs'⟩

theorem point_range {s : Coords} (hs : ∀ mu, 0 < s mu) (r : Range) (i : Nat) (mu : Dir) :
    -(s mu : Int) < rangePoint s r i mu ∧ rangePoint s r i mu < s mu := tmod_range (hs mu)

theorem box_unique {n : Int} {a b : Int} (ha : 0 ≤ a ∧ a < n) (h : n ∣ a - b) : a = b % n := by
  have : a % n = b % n := Int.ModEq.symm (Int.modEq_iff_dvd.2 h)
  rw [← this, Int.emod_eq_of_lt ha.1 ha.2]

theorem emod_dvd (b n : Int) : n ∣ b % n - b := by
  have : b ≡ b % n [ZMOD n] := (Int.mod_modEq b n).symm
  exact Int.modEq_iff_dvd.1 this

/-! ### the cut depends on the momentum only -/

theorem sin_shift {n : Nat} (hn : 0 < n) {a b : Int} (h : (2 * (n : Int)) ∣ a - b) :
    Real.sin (Real.pi * (a : ℝ) / (n : ℝ)) = Real.sin (Real.pi * (b : ℝ) / (n : ℝ)) := by
  obtain ⟨m, hm⟩ := h
  have e : a = b + 2 * n * m := by linarith
  have hn' : (n : ℝ) ≠ 0 := by exact_mod_cast hn.ne'
  have : Real.pi * (a : ℝ) / (n : ℝ) = Real.pi * (b : ℝ) / (n : ℝ) + m * (2 * Real.pi) := by
    rw [e]; push_cast; field_simp
  rw [this, Real.sin_add_int_mul_two_pi]

theorem sin_flip {n : Nat} (hn : 0 < n) {a b : Int} (h : (2 * (n : Int)) ∣ a + b) :
    Real.sin (Real.pi * (a : ℝ) / (n : ℝ)) = - Real.sin (Real.pi * (b : ℝ) / (n : ℝ)) := by
  have h' : (2 * (n : Int)) ∣ a - (-b) := by rwa [sub_neg_eq_add]
  rw [sin_shift hn h', ← Real.sin_neg]
  congr 1
  push_cast
  ring

theorem passes_cut (s : Coords) (anti : Bool) (p4max : ℝ) (c : ICoords) : passes s anti p4max c ↔ Cut s anti p4max c := by
  unfold passes Cut
  have e2 : pt2 s anti c = ptmu s anti c 0 ^ 2 + ptmu s anti c 1 ^ 2 + ptmu s anti c 2 ^ 2 + ptmu s anti c 3 ^ 2 := by
    unfold pt2 dirs; simp [List.foldl]
  have e4 : pt4 s anti c = ptmu s anti c 0 ^ 4 + ptmu s anti c 1 ^ 4 + ptmu s anti c 2 ^ 4 + ptmu s anti c 3 ^ 4 := by
    unfold pt4 dirs; simp [List.foldl]
  rw [e2, e4]
  rfl

/-- two labels of momenta which agree up to signs satisfy the same cut -/
theorem cut_same {s : Coords} (hs : ∀ mu, 0 < s mu) (anti : Bool) (p4max : ℝ) {k l : ICoords}
    (h : ∀ mu, (2 * (s mu : Int)) ∣ twice anti l mu - twice anti k mu ∨ (2 * (s mu : Int)) ∣ twice anti l mu + twice anti k mu) :
    Cut s anti p4max l ↔ Cut s anti p4max k := by
  have e : ∀ mu, Real.sin (Real.pi * (twice anti l mu : ℝ) / (s mu : ℝ)) ^ 2 = Real.sin (Real.pi * (twice anti k mu : ℝ) / (s mu : ℝ)) ^ 2 := by
    intro mu
    rcases h mu with h | h
    · rw [sin_shift (hs mu) h]
    · rw [sin_flip (hs mu) h]; ring
  have e4 : ∀ mu, Real.sin (Real.pi * (twice anti l mu : ℝ) / (s mu : ℝ)) ^ 4 = Real.sin (Real.pi * (twice anti k mu : ℝ) / (s mu : ℝ)) ^ 4 := by
    intro mu
    rw [show (4 : Nat) = 2 * 2 from rfl, pow_mul, pow_mul, e]
  unfold Cut
  simp only [e, e4]

/-! ### membership -/

theorem bits16 (A : Dir → Bool) : ∃ i, i < 16 ∧ ∀ mu : Dir, i.testBit mu.val = A mu := by
  revert A; decide

theorem mem_cands {g : Geo} (hs : ∀ mu, 0 < g.L mu) (anti : Bool) (ranges : List Range) (q : Coords) :
    (∃ c ∈ cands g anti ranges, q = natc c) ↔ Wanted g.L anti ranges q := by
  unfold cands Wanted
  constructor
  · rintro ⟨c, hc, rfl⟩
    obtain ⟨r, hr, hc⟩ := List.mem_flatMap.1 hc
    obtain ⟨i, hi, hc⟩ := List.mem_flatMap.1 hc
    split at hc
    · rename_i hp
      obtain ⟨imir, _, rfl⟩ := List.mem_map.1 hc
      have hb := cmir_box hs anti (point_range hs r i) imir
      have hw : ∀ mu, 0 < r.width mu := by
        intro mu
        by_contra h0
        have : r.width mu = 0 := by omega
        have hv : volOfLx r.width = 0 := by
          have hm : volOfLx r.width = r.width 0 * r.width 1 * r.width 2 * r.width 3 := by unfold volOfLx dirs; simp
          rw [hm]
          fin_cases mu <;> (simp at this; rw [this]; simp)
        rw [hv] at hi
        simp at hi
      have hco := (C01_lxOfCoord_coordOfLx r.width hw i (List.mem_range.1 hi)).1
      refine ⟨natc_lt hb, r, hr, fun mu => (coordOfLx i r.width mu : Int) + r.offs mu, ?_, ?_, ?_⟩
      · intro mu
        have := hco mu
        constructor
        · show r.offs mu ≤ (coordOfLx i r.width mu : Int) + r.offs mu; omega
        · show (coordOfLx i r.width mu : Int) + r.offs mu < r.offs mu + r.width mu; omega
      · rw [passes_cut] at hp
        refine (cut_same hs anti r.p4max ?_).1 hp
        intro mu
        left
        obtain ⟨m, hm⟩ := tmod_dvd ((coordOfLx i r.width mu : Int) + r.offs mu) (g.L mu)
        refine ⟨-m, ?_⟩
        unfold twice rangePoint
        linarith
      · have hq : (fun nu => ((natc (cmir g.L anti (rangePoint g.L r i) imir) nu : Nat) : Int)) = cmir g.L anti (rangePoint g.L r i) imir := intc_natc hb
        intro mu
        rw [hq]
        obtain ⟨m, hm⟩ := tmod_dvd ((coordOfLx i r.width mu : Int) + r.offs mu) (g.L mu)
        have hce := cmir_eq hs anti (point_range hs r i) imir mu
        have hrp : rangePoint g.L r i mu = ((coordOfLx i r.width mu : Int) + r.offs mu).tmod (g.L mu) := rfl
        rw [← hrp] at hm
        by_cases hf : imir.testBit mu.val = true
        · right
          rw [if_pos hf] at hce
          obtain ⟨n, hn⟩ := emod_dvd (-(rangePoint g.L r i mu + bcAt anti mu)) (g.L mu)
          rw [← hce] at hn
          refine ⟨n + m, ?_⟩
          have hbc : bcAt anti mu = if mu = 0 ∧ anti = true then 1 else 0 := rfl
          rw [hbc] at hn
          unfold twice
          linarith
        · left
          rw [if_neg hf] at hce
          obtain ⟨n, hn⟩ := emod_dvd (rangePoint g.L r i mu) (g.L mu)
          rw [← hce] at hn
          refine ⟨n - m, ?_⟩
          unfold twice
          linarith
    · simp at hc
  · rintro ⟨hq, r, hr, k, hk, hcut, hsame⟩
    have hx : ∀ mu, (k mu - r.offs mu).toNat < r.width mu := by intro mu; have := hk mu; omega
    obtain ⟨hi, hco⟩ := C01_coordOfLx_lxOfCoord r.width _ hx
    set i := lxOfCoord (fun mu => (k mu - r.offs mu).toNat) r.width with hidef
    have hpt : ∀ mu, rangePoint g.L r i mu = (k mu).tmod (g.L mu) := by
      intro mu
      unfold rangePoint
      rw [hco]
      have := hk mu
      congr 1
      show (((k mu - r.offs mu).toNat : Nat) : Int) + r.offs mu = k mu
      omega
    have hpass : passes g.L anti r.p4max (rangePoint g.L r i) := by
      rw [passes_cut]
      refine (cut_same hs anti r.p4max ?_).1 hcut
      intro mu
      left
      obtain ⟨m, hm⟩ := tmod_dvd (k mu) (g.L mu)
      refine ⟨m, ?_⟩
      unfold twice
      rw [hpt]
      linarith
    classical
    obtain ⟨imir, him, hbits⟩ := bits16 (fun mu => decide (¬ (2 * (g.L mu : Int)) ∣ twice anti (fun nu => (q nu : Int)) mu - twice anti k mu))
    have hb := cmir_box hs anti (point_range hs r i) imir
    refine ⟨cmir g.L anti (rangePoint g.L r i) imir, ?_, ?_⟩
    · refine List.mem_flatMap.2 ⟨r, hr, List.mem_flatMap.2 ⟨i, List.mem_range.2 hi, ?_⟩⟩
      rw [if_pos hpass]
      exact List.mem_map.2 ⟨imir, List.mem_range.2 him, rfl⟩
    · funext mu
      have hce := cmir_eq hs anti (point_range hs r i) imir mu
      have hqb : (0 : Int) ≤ q mu ∧ (q mu : Int) < g.L mu := ⟨by omega, by exact_mod_cast hq mu⟩
      obtain ⟨m, hm⟩ := tmod_dvd (k mu) (g.L mu)
      have : (q mu : Int) = cmir g.L anti (rangePoint g.L r i) imir mu := by
        rw [hce]
        by_cases hd : (2 * (g.L mu : Int)) ∣ twice anti (fun nu => (q nu : Int)) mu - twice anti k mu
        · have hf : imir.testBit mu.val = false := by rw [hbits]; simp [hd]
          rw [hf]
          simp only [Bool.false_eq_true, if_false]
          apply box_unique hqb
          rw [hpt]
          obtain ⟨n, hn⟩ := hd
          unfold twice at hn
          exact ⟨n + m, by linarith⟩
        · have hf : imir.testBit mu.val = true := by rw [hbits]; simp [hd]
          rw [hf]
          simp only [if_true]
          apply box_unique hqb
          rw [hpt]
          obtain ⟨n, hn⟩ := (hsame mu).resolve_left hd
          unfold twice at hn
          have hbc : bcAt anti mu = if mu = 0 ∧ anti = true then 1 else 0 := rfl
          refine ⟨n - m, ?_⟩
          rw [hbc]
          linarith
      show q mu = (cmir g.L anti (rangePoint g.L r i) imir mu).toNat
      rw [← this]
      simp

theorem cands_box {g : Geo} (hs : ∀ mu, 0 < g.L mu) (anti : Bool) (ranges : List Range) (c : ICoords) (hc : c ∈ cands g anti ranges) : Box g.L c := by
  unfold cands at hc
  obtain ⟨r, hr, hc⟩ := List.mem_flatMap.1 hc
  obtain ⟨i, hi, hc⟩ := List.mem_flatMap.1 hc
  split at hc
  · obtain ⟨imir, _, rfl⟩ := List.mem_map.1 hc
    exact cmir_box hs anti (point_range hs r i) imir
  · simp at hc

theorem inv_nil (g : Geo) (rank : Nat) (fout : Bool) : Inv g rank fout [] ⟨[], [], []⟩ :=
  ⟨by simp, List.nodup_nil, rfl, rfl, by cases fout <;> rfl⟩

/-- the list does not depend on the rank, nor on whether the file is written -/
theorem filtered_same (g : Geo) (r r' : Nat) (f f' : Bool) : ∀ (cs : List ICoords) (st st' : St), st.filtered = st'.filtered →
    (cs.foldl (visit g r f) st).filtered = (cs.foldl (visit g r' f') st').filtered
  | [], st, st', h => h
  | c :: cs, st, st', h => by
    rw [List.foldl_cons, List.foldl_cons]
    apply filtered_same g r r' f f' cs
    unfold visit
    dsimp only
    rw [h]
    split
    · exact h
    · rfl

/-- C83: the filter made from ranges keeps each momentum which, up to the signs of its components, lies in one of the ranges and passes
its cut, each of them exactly once, whatever the offsets (negative ones included), the overlaps and the boundary condition in time.
Every rank builds the same list: momentum number `i` goes to position `i` of rank 0, from the rank holding it and from no other;
the file, when written, holds the momenta in the same order. -/
theorem C83_from_range (g : Geo) (hs : ∀ mu, 0 < g.L mu) (anti : Bool) (ranges : List Range) :
    ∃ ms : List Coords, ms.Nodup ∧ (∀ q, q ∈ ms ↔ Wanted g.L anti ranges q) ∧ ∀ rank fout,
      (filterFromRange g anti rank fout ranges).filtered.length = ms.length ∧
      (filterFromRange g anti rank fout ranges).sl = slOf g rank ms ∧
      (filterFromRange g anti rank fout ranges).lines = if fout then ms.map (fun q => signedCoord g.L (intc q)) else [] := by
  have key : ∀ rank fout, ∃ ms, Inv g rank fout ms (filterFromRange g anti rank fout ranges) ∧ ∀ q, q ∈ ms ↔ Wanted g.L anti ranges q := by
    intro rank fout
    rw [filter_eq]
    obtain ⟨ms, I, h⟩ := fold_inv (cands g anti ranges) (inv_nil g rank fout) (cands_box hs anti ranges)
    exact ⟨ms, I, fun q => by rw [h, ← mem_cands hs]; simp⟩
  obtain ⟨ms, I, h⟩ := key 0 false
  refine ⟨ms, I.nodup, h, fun rank fout => ?_⟩
  obtain ⟨ms', I', h'⟩ := key rank fout
  have e : ms'.map (fun q => lxOfCoord q g.L) = ms.map (fun q => lxOfCoord q g.L) := by
    rw [← I'.filt, ← I.filt, filter_eq, filter_eq]
    exact filtered_same g rank 0 fout false _ _ _ rfl
  have em : ms' = ms := by
    have d : ∀ l : List Coords, (∀ q ∈ l, ∀ mu, q mu < g.L mu) → (l.map (fun q => lxOfCoord q g.L)).map (fun i => coordOfLx i g.L) = l := by
      intro l hl
      rw [List.map_map]
      conv_rhs => rw [← List.map_id l]
      apply List.map_congr_left
      intro q hq
      exact (C01_coordOfLx_lxOfCoord g.L q (hl q hq)).2
    rw [← d ms' I'.box, e, d ms I.box]
  subst em
  exact ⟨by rw [I'.filt, List.length_map], I'.sl, I'.lines⟩

/-- C83: the scattering list of a rank holds exactly the entries (local site, position of rank 0) of the momenta it hosts. -/
theorem C83_slots (g : Geo) (rank : Nat) (ms : List Coords) (e : Nat × Nat) :
    e ∈ slOf g rank ms ↔ ∃ i q, ms[i]? = some q ∧ (getLoclxAndRankOfCoords g q).1 = rank ∧ e = ((getLoclxAndRankOfCoords g q).2, i * g.nranks) := by
  unfold slOf
  rw [List.mem_filterMap]
  constructor
  · rintro ⟨⟨q, i⟩, h, h'⟩
    have := (List.mem_zipIdx_iff_getElem? (x := (q, i)) (l := ms)).1 h
    dsimp only at h' this
    split at h'
    · rename_i hr
      exact ⟨i, q, this, hr.symm, (Option.some.inj h').symm⟩
    · simp at h'
  · rintro ⟨i, q, h, hr, rfl⟩
    exact ⟨(q, i), (List.mem_zipIdx_iff_getElem? (x := (q, i)) (l := ms)).2 h, by simp [hr]⟩

/-- C83: the momenta asked for are closed under the change of sign of any component, and each satisfies the cut of a range. -/
theorem C83_closed (s : Coords) (hs : ∀ mu, 0 < s mu) (anti : Bool) (ranges : List Range) (q q' : Coords) (hq : Wanted s anti ranges q)
    (hb : ∀ mu, q' mu < s mu) (h : SameUpToSigns s anti q' (intc q)) :
    Wanted s anti ranges q' ∧ ∃ r ∈ ranges, Cut s anti r.p4max (intc q) := by
  obtain ⟨hq1, r, hr, k, hk, hc, hsame⟩ := hq
  refine ⟨⟨hb, r, hr, k, hk, hc, ?_⟩, r, hr, (cut_same hs anti r.p4max hsame).2 hc⟩
  intro mu
  have e : (fun nu => ((q nu : Nat) : Int)) = intc q := rfl
  have h2 := hsame mu
  rw [e] at h2
  rcases h mu with ⟨a, ha⟩ | ⟨a, ha⟩ <;> rcases h2 with ⟨b, hb'⟩ | ⟨b, hb'⟩
  · exact Or.inl ⟨a + b, by linarith⟩
  · exact Or.inr ⟨a + b, by linarith⟩
  · exact Or.inr ⟨a - b, by linarith⟩
  · exact Or.inl ⟨a - b, by linarith⟩

/-! ### reading the list -/

theorem lines_file : ∀ ls : List ICoords, linesOf (fileOf ls) = ls
  | [] => rfl
  | l :: ls => by
    have : fileOf (l :: ls) = l 0 :: l 1 :: l 2 :: l 3 :: fileOf ls := rfl
    rw [this, linesOf, lines_file ls]
    congr 1
    funext mu
    fin_cases mu <;> rfl

theorem read_inv {g : Geo} {rank : Nat} : ∀ (ls : List ICoords) (ms : List Coords) (st : St), (∀ q ∈ ms, ∀ mu, q mu < g.L mu) →
    (∀ l ∈ ls, Box g.L (wrapLine g.L l)) → (ms ++ ls.map (fun l => natc (wrapLine g.L l))).Nodup →
    st.filtered = ms.map (fun q => lxOfCoord q g.L) → st.sl = slOf g rank ms →
    (ls.foldl (visitLine g rank) st).filtered.length = ms.length + ls.length ∧
    (ls.foldl (visitLine g rank) st).sl = slOf g rank (ms ++ ls.map (fun l => natc (wrapLine g.L l)))
  | [], ms, st, _, _, _, hf, hsl => by simp [hf, hsl]
  | l :: ls, ms, st, hb, hl, hnd, hf, hsl => by
    have hbl := natc_lt (hl l (by simp))
    have hn : natc (wrapLine g.L l) ∉ ms := by
      intro h
      rw [List.nodup_append] at hnd
      exact hnd.2.2 _ h _ (by simp) rfl
    have hnf : lxOfCoord (natc (wrapLine g.L l)) g.L ∉ st.filtered := by
      rw [hf, List.mem_map]
      rintro ⟨p, hp, e⟩
      exact hn (lx_inj (hb p hp) hbl e ▸ hp)
    have hlen : st.filtered.length = ms.length := by rw [hf, List.length_map]
    rw [List.foldl_cons]
    have := read_inv (rank := rank) ls (ms ++ [natc (wrapLine g.L l)]) (visitLine g rank st l) ?_ (fun m hm => hl m (by simp [hm])) (by simpa using hnd) ?_ ?_
    · simp only [List.length_append, List.length_singleton, List.append_assoc, List.singleton_append] at this
      simp only [List.length_cons, List.map_cons]
      exact ⟨by rw [this.1]; omega, this.2⟩
    · intro q hq
      rcases List.mem_append.1 hq with h' | h'
      · exact hb q h'
      · rw [List.mem_singleton.1 h']; exact hbl
    · show (if _ then _ else _) = _
      rw [if_neg hnf, hf]
      simp
    · show (if rank = _ then _ else _) = _
      rw [slOf_snoc, hsl, hlen]

/-- C83: a file listing distinct momenta, with components not below `-L`, gives the filter which sends momentum number `i` of the file
to position `i`; integers that do not make a full line at the end are ignored. -/
theorem C83_from_file (g : Geo) (rank : Nat) (ls : List ICoords) (hs : ∀ mu, 0 < g.L mu) (hl : ∀ l ∈ ls, ∀ mu, -(g.L mu : Int) ≤ l mu)
    (hd : (ls.map (fun l mu => ((l mu) % (g.L mu : Int)).toNat)).Nodup) (tail : List Int) (ht : tail.length < 4) :
    (filterFromFile g rank (fileOf ls ++ tail)).filtered.length = ls.length ∧
    (filterFromFile g rank (fileOf ls ++ tail)).sl = slOf g rank (ls.map (fun l mu => ((l mu) % (g.L mu : Int)).toNat)) := by
  have hw : ∀ l ∈ ls, wrapLine g.L l = fun mu => (l mu) % (g.L mu : Int) := by
    intro l h
    funext mu
    have := hl l h mu
    unfold wrapLine
    rw [Int.tmod_eq_emod_of_nonneg (by linarith), Int.add_emod_right]
  have hmap : ls.map (fun l => natc (wrapLine g.L l)) = ls.map (fun l mu => ((l mu) % (g.L mu : Int)).toNat) := by
    apply List.map_congr_left
    intro l h
    rw [hw l h]
    rfl
  have hlines : ∀ ls : List ICoords, linesOf (fileOf ls ++ tail) = ls := by
    intro ls
    induction ls with
    | nil =>
      show linesOf tail = []
      match tail, ht with
      | [], _ => rfl
      | [_], _ => rfl
      | [_, _], _ => rfl
      | [_, _, _], _ => rfl
      | _ :: _ :: _ :: _ :: _, h => simp at h; omega
    | cons l ls ih =>
      have : fileOf (l :: ls) ++ tail = l 0 :: l 1 :: l 2 :: l 3 :: (fileOf ls ++ tail) := rfl
      rw [this, linesOf, ih]
      congr 1
      funext mu
      fin_cases mu <;> rfl
  unfold filterFromFile
  rw [hlines]
  have := read_inv (g := g) (rank := rank) ls [] ⟨[], [], []⟩ (by simp) (by
    intro l h mu
    rw [hw l h]
    have hs' : (0 : Int) < g.L mu := by exact_mod_cast hs mu
    exact ⟨Int.emod_nonneg _ hs'.ne', Int.emod_lt_of_pos _ hs'⟩) (by rw [List.nil_append, hmap]; exact hd) rfl rfl
  rw [List.nil_append, hmap] at this
  simpa using this

/-- C83: feeding back the file written by a run with ranges gives the same filter, on every rank. -/
theorem C83_round_trip (g : Geo) (hs : ∀ mu, 0 < g.L mu) (anti : Bool) (ranges : List Range) (rank : Nat) :
    let st := filterFromRange g anti rank true ranges
    let st' := filterFromFile g rank (fileOf st.lines)
    st'.filtered.length = st.filtered.length ∧ st'.sl = st.sl := by
  intro st st'
  obtain ⟨ms, hnd, hm, H⟩ := C83_from_range g hs anti ranges
  obtain ⟨h1, h2, h3⟩ := H rank true
  rw [if_pos rfl] at h3
  have hbox : ∀ q ∈ ms, ∀ mu, q mu < g.L mu := fun q hq => ((hm q).1 hq).1
  have hback : (ms.map (fun q => signedCoord g.L (intc q))).map (fun l mu => ((l mu) % (g.L mu : Int)).toNat) = ms := by
    rw [List.map_map]
    conv_rhs => rw [← List.map_id ms]
    apply List.map_congr_left
    intro q hq
    funext mu
    have := hbox q hq mu
    show ((if (q mu : Int) < _ then (q mu : Int) else (q mu : Int) - g.L mu) % (g.L mu : Int)).toNat = q mu
    split
    · rw [Int.emod_eq_of_lt (by omega) (by omega)]; simp
    · rw [Int.sub_emod_right, Int.emod_eq_of_lt (by omega) (by omega)]; simp
  have := C83_from_file g rank (ms.map (fun q => signedCoord g.L (intc q))) hs (by
    intro l hl mu
    obtain ⟨q, hq, rfl⟩ := List.mem_map.1 hl
    have := hbox q hq mu
    show -(g.L mu : Int) ≤ if (q mu : Int) < _ then (q mu : Int) else (q mu : Int) - g.L mu
    split <;> omega) (by rw [hback]; exact hnd) [] (by simp)
  rw [hback, List.append_nil, List.length_map] at this
  show (filterFromFile g rank (fileOf (filterFromRange g anti rank true ranges).lines)).filtered.length = (filterFromRange g anti rank true ranges).filtered.length ∧
    (filterFromFile g rank (fileOf (filterFromRange g anti rank true ranges).lines)).sl = (filterFromRange g anti rank true ranges).sl
  rw [h1, h2, h3]
  exact this

/-- C83, violated for files: a momentum listed twice makes the second copy take the position of the following momentum, so that two momenta
are sent to the same position (first part), or a position past the end if nothing follows (second part). On every lattice. -/
theorem C83_violated_duplicates (g : Geo) (l m : Coords) (hl : ∀ mu, l mu < g.L mu) (hm : ∀ mu, m mu < g.L mu) (hne : l ≠ m) :
    let f1 := fun rank => filterFromFile g rank (fileOf [intc l, intc l, intc m])
    let f2 := fun rank => filterFromFile g rank (fileOf [intc l, intc l])
    (((getLoclxAndRankOfCoords g l).2, 1 * g.nranks) ∈ (f1 (getLoclxAndRankOfCoords g l).1).sl ∧
      ((getLoclxAndRankOfCoords g m).2, 1 * g.nranks) ∈ (f1 (getLoclxAndRankOfCoords g m).1).sl) ∧
    (∀ rank, (f2 rank).filtered.length = 1) ∧ ((getLoclxAndRankOfCoords g l).2, 1 * g.nranks) ∈ (f2 (getLoclxAndRankOfCoords g l).1).sl := by
  have w : ∀ q : Coords, (∀ mu, q mu < g.L mu) → natc (wrapLine g.L (intc q)) = q := by
    intro q hq
    funext mu
    have := hq mu
    unfold natc wrapLine intc
    rw [Int.tmod_eq_emod_of_nonneg (by omega), Int.add_emod_right, Int.emod_eq_of_lt (by omega) (by omega)]
    simp
  have hlm : lxOfCoord l g.L ≠ lxOfCoord m g.L := fun h => hne (lx_inj hl hm h)
  refine ⟨⟨?_, ?_⟩, ?_, ?_⟩
  · show _ ∈ (filterFromFile _ _ _).sl
    unfold filterFromFile
    rw [lines_file]
    simp [visitLine, w l hl, w m hm]
    split <;> simp
  · show _ ∈ (filterFromFile _ _ _).sl
    unfold filterFromFile
    rw [lines_file]
    simp [visitLine, w l hl, w m hm, hlm]
  · intro rank
    show (filterFromFile _ _ _).filtered.length = 1
    unfold filterFromFile
    rw [lines_file]
    simp [visitLine, w l hl]
  · show _ ∈ (filterFromFile _ _ _).sl
    unfold filterFromFile
    rw [lines_file]
    simp [visitLine, w l hl]

/-- a non trivial momentum asked for: antiperiodic time, range -1..1 in each direction; (T-1,0,0,1), which is minus (0,0,0,-1), is asked for -/
example : SameUpToSigns ![8, 4, 4, 4] true ![7, 0, 0, 1] ![0, 0, 0, -1] ∧ ¬ SameUpToSigns ![8, 4, 4, 4] true ![1, 0, 0, 1] ![0, 0, 0, -1] := by
  constructor
  · intro mu; fin_cases mu <;> simp [twice] <;> decide
  · intro h
    have := h 0
    revert this
    simp only [twice]
    decide

/-- the hypotheses are met by a non trivial range: one point, with a negative offset, and its images -/
example : Wanted ![8, 4, 4, 4] true [⟨![0, 0, 0, -1], ![1, 1, 1, 1], 2⟩] ![7, 0, 0, 1] := by
  refine ⟨by decide, _, List.mem_singleton.2 rfl, ![0, 0, 0, -1], by decide, ?_, ?_⟩
  · unfold Cut
    intro w p2 p4
    have w0 : 0 < w 0 := by
      show 0 < Real.sin _
      apply Real.sin_pos_of_pos_of_lt_pi
      · have := Real.pi_pos; simp [twice]; positivity
      · have := Real.pi_pos; simp [twice]; linarith
    have h2 : 0 < p2 := by
      show 0 < w 0 ^ 2 + w 1 ^ 2 + w 2 ^ 2 + w 3 ^ 2
      positivity
    refine ⟨h2.ne', ?_⟩
    rw [div_lt_iff₀ (by positivity)]
    have : p4 ≤ p2 ^ 2 := by
      show w 0 ^ 4 + w 1 ^ 4 + w 2 ^ 4 + w 3 ^ 4 ≤ (w 0 ^ 2 + w 1 ^ 2 + w 2 ^ 2 + w 3 ^ 2) ^ 2
      have e : (w 0 ^ 2 + w 1 ^ 2 + w 2 ^ 2 + w 3 ^ 2) ^ 2 = w 0 ^ 4 + w 1 ^ 4 + w 2 ^ 4 + w 3 ^ 4 +
        2 * ((w 0 * w 1) ^ 2 + (w 0 * w 2) ^ 2 + (w 0 * w 3) ^ 2 + (w 1 * w 2) ^ 2 + (w 1 * w 3) ^ 2 + (w 2 * w 3) ^ 2) := by ring
      rw [e]
      have : 0 ≤ 2 * ((w 0 * w 1) ^ 2 + (w 0 * w 2) ^ 2 + (w 0 * w 3) ^ 2 + (w 1 * w 2) ^ 2 + (w 1 * w 3) ^ 2 + (w 2 * w 3) ^ 2) := by positivity
      linarith
    have : 0 < p2 ^ 2 := by positivity
    show p4 < 2 * p2 ^ 2
    linarith
  · intro mu; fin_cases mu <;> simp [twice] <;> decide

end Nissa.MomF
