/- C33, C34: counter based generator and field random streams. -/
import Verif.Random.Sitmo
import Verif.Random.PropsSources
import Mathlib.Data.Fin.VecNotation
import Mathlib.Tactic.FinCases
import Mathlib.Tactic.IntervalCases
import Mathlib.Tactic.Linarith
import Mathlib.Data.List.GetD
set_option linter.all false

namespace Nissa.Sitmo

theorem rotl_bit (x : W) {r : Nat} (h0 : 0 < r) (h : r < 64) (i : Nat) (hi : i < 64) : (rotl x r).getLsbD ((i + r) % 64) = x.getLsbD i := by
  unfold rotl
  rw [BitVec.getLsbD_or, BitVec.getLsbD_shiftLeft, BitVec.getLsbD_ushiftRight]
  by_cases hc : i + r < 64
  · rw [Nat.mod_eq_of_lt hc]
    have h1 : x.getLsbD (64 - r + (i + r)) = false := BitVec.getLsbD_of_ge _ _ (by omega)
    simp [h1, hc]
  · have e : (i + r) % 64 = i + r - 64 := by omega
    rw [e]
    have h2 : i + r - 64 < r := by omega
    have h3 : 64 - r + (i + r - 64) = i := by omega
    simp [h2, h3]

theorem rotl_inj {r : Nat} (h0 : 0 < r) (h : r < 64) {x y : W} (e : rotl x r = rotl y r) : x = y := by
  apply BitVec.eq_of_getLsbD_eq
  intro i hi
  rw [← rotl_bit x h0 h i hi, ← rotl_bit y h0 h i hi, e]

theorem xor_inj {a b c : W} (h : a ^^^ c = b ^^^ c) : a = b := by
  have : a ^^^ c ^^^ c = b ^^^ c ^^^ c := by rw [h]
  rwa [BitVec.xor_assoc, BitVec.xor_self, BitVec.xor_zero, BitVec.xor_assoc, BitVec.xor_self, BitVec.xor_zero] at this

theorem add_inj {a b c : W} (h : a + c = b + c) : a = b := by
  have : a + c - c = b + c - c := by rw [h]
  rwa [BitVec.add_sub_cancel, BitVec.add_sub_cancel] at this

/-- a generic mixing step: invertible -/
theorem mixing_inj {a b : Fin 4} (hab : a ≠ b) (f g : W → W → W) (x y : Word)
    (hx : ∀ (u u' v v' : W), f u v = f u' v' → g u (f u v) = g u' (f u' v') → u = u' ∧ v = v')
    (h : Function.update (Function.update x a (f (x b) (x a))) b (g (x b) (f (x b) (x a))) =
      Function.update (Function.update y a (f (y b) (y a))) b (g (y b) (f (y b) (y a)))) : x = y := by
  have hb := congrFun h b
  rw [Function.update_self, Function.update_self] at hb
  have ha := congrFun h a
  rw [Function.update_of_ne hab, Function.update_of_ne hab, Function.update_self, Function.update_self] at ha
  obtain ⟨e1, e2⟩ := hx _ _ _ _ ha hb
  funext k
  by_cases hkb : k = b
  · rw [hkb]; exact e1
  · by_cases hka : k = a
    · rw [hka]; exact e2
    · have := congrFun h k
      rwa [Function.update_of_ne hkb, Function.update_of_ne hka, Function.update_of_ne hkb, Function.update_of_ne hka] at this

theorem mixKey_inj (key : Key) (j i : Nat) (hi : i = 0 ∨ i = 1) {x y : Word} (h : mixKey key j i x = mixKey key j i y) : x = y := by
  have hab : ix4 (2 * i) ≠ ix4 (2 * i + 1) := by
    intro h'; have := congrArg Fin.val h'; simp only [ix4] at this; omega
  have hr : 0 < mkRot j i ∧ mkRot j i < 64 := by unfold mkRot; split <;> split <;> omega
  unfold mixKey at h
  simp only at h
  generalize hk1 : key (ix5 (2 * i + 1 + j)) + (if i = 1 then BitVec.ofNat 64 j else 0) = k1 at h
  generalize key (ix5 (2 * i + j)) = k0 at h
  generalize mkRot j i = r at *
  refine mixing_inj hab (fun u v => v + (u + k1 + k0)) (fun u w => rotl (u + k1) r ^^^ w) x y ?_ h
  intro u u' v v' h1 h2
  rw [h1] at h2
  have hu := add_inj (rotl_inj hr.1 hr.2 (xor_inj h2))
  subst hu
  exact ⟨rfl, add_inj h1⟩

theorem mix_inj (j l i : Nat) (hi : i = 0 ∨ i = 1) {x y : Word} (h : mix j l i x = mix j l i y) : x = y := by
  have hab : ix4 (2 * i) ≠ ix4 (2 * i + (if l % 2 = 0 then 3 else 1)) := by
    intro h'; have := congrArg Fin.val h'; simp only [ix4] at this; split at this <;> omega
  have hr : 0 < mRot j l i ∧ mRot j l i < 64 := by
    unfold mRot
    split <;> split <;> (try split) <;> (try split) <;> omega
  unfold mix at h
  simp only at h
  generalize mRot j l i = r at *
  refine mixing_inj hab (fun u v => v + u) (fun u w => rotl u r ^^^ w) x y ?_ h
  intro u u' v v' h1 h2
  rw [h1] at h2
  have hu := rotl_inj hr.1 hr.2 (xor_inj h2)
  subst hu
  exact ⟨rfl, add_inj h1⟩

theorem round_inj (key : Key) (j : Nat) {x y : Word} (h : round key j x = round key j y) : x = y := by
  unfold round at h
  simp only [List.foldl_cons, List.foldl_nil] at h
  have o : (1 : Nat) = 0 ∨ (1 : Nat) = 1 := Or.inr rfl
  have z : (0 : Nat) = 0 ∨ (0 : Nat) = 1 := Or.inl rfl
  exact mixKey_inj key j 0 z (mixKey_inj key j 1 o (mix_inj j 0 0 z (mix_inj j 0 1 o (mix_inj j 1 0 z (mix_inj j 1 1 o (mix_inj j 2 0 z (mix_inj j 2 1 o h)))))))

/-- C33: for every key the encryption never maps two different inputs to the same 256-bit block -/
theorem C33_encrypt_injective (key : Key) (x y : Word) (h : encrypt key x = encrypt key y) : x = y := by
  unfold encrypt at h
  simp only [List.foldl_cons, List.foldl_nil] at h
  have : round key 4 (round key 3 (round key 2 (round key 1 (round key 0 x)))) = round key 4 (round key 3 (round key 2 (round key 1 (round key 0 y)))) := by
    generalize round key 4 (round key 3 (round key 2 (round key 1 (round key 0 x)))) = a at h
    generalize round key 4 (round key 3 (round key 2 (round key 1 (round key 0 y)))) = b at h
    funext k
    by_cases hk : k = 3
    · have := congrFun h 3
      rw [Function.update_self, Function.update_self] at this
      rw [hk]; exact add_inj this
    · have := congrFun h k
      rwa [Function.update_of_ne hk, Function.update_of_ne hk] at this
  exact round_inj key 0 (round_inj key 1 (round_inj key 2 (round_inj key 3 (round_inj key 4 this))))

/-- different seeds give different keys -/
theorem C33_seed_injective (s s' : BitVec 32) (h : (seed s).key = (seed s').key) : s = s' := by
  have := congrFun h 0
  simp only [seed, buildKey] at this
  simp at this
  apply BitVec.eq_of_toNat_eq
  have := congrArg BitVec.toNat this
  have h1 := s.isLt
  have h2 := s'.isLt
  simp at this
  omega

/-! ### Counter arithmetic -/

/-- the 256-bit integer held by a state -/
def val (s : Word) : Nat := (s 0).toNat + (s 1).toNat * 2 ^ 64 + (s 2).toNat * 2 ^ 128 + (s 3).toNat * 2 ^ 192

theorem toNat_succ (x : W) : (x + 1).toNat = if x.toNat + 1 = 2 ^ 64 then 0 else x.toNat + 1 := by
  have := x.isLt
  rw [BitVec.toNat_add, show (1 : W).toNat = 1 from rfl]
  split <;> omega

theorem eq_zero_iff (x : W) : x = 0 ↔ x.toNat = 0 := ⟨fun h => by rw [h]; rfl, fun h => BitVec.eq_of_toNat_eq h⟩

theorem val_lt {a b c d : Nat} (ha : a < 2 ^ 64) (hb : b < 2 ^ 64) (hc : c < 2 ^ 64) (hd : d < 2 ^ 64) :
    a + b * 2 ^ 64 + c * 2 ^ 128 + d * 2 ^ 192 < 2 ^ 256 := by omega

theorem carry_val (x : Word) : val (carry x 1) = (val x + 2 ^ 64) % 2 ^ 256 := by
  have b0 := (x 0).isLt
  have b1 := (x 1).isLt
  have b2 := (x 2).isLt
  have b3 := (x 3).isLt
  have e1 := toNat_succ (x 1)
  have e2 := toNat_succ (x 2)
  have e3 := toNat_succ (x 3)
  rw [carry, dif_pos (by omega)]
  simp only [Function.update_self]
  by_cases c1 : x 1 + 1 = 0
  · rw [show (⟨1, by omega⟩ : Fin 4) = 1 from rfl, if_pos ⟨c1, by omega⟩, carry, dif_pos (by omega)]
    have hne : ∀ v, Function.update x (1 : Fin 4) v 2 = x 2 := fun v => Function.update_of_ne (by decide) _ _
    rw [show (⟨1 + 1, by omega⟩ : Fin 4) = 2 from rfl]
    simp only [Function.update_self, hne]
    have c1' := (eq_zero_iff _).1 c1
    by_cases c2 : x 2 + 1 = 0
    · rw [if_pos ⟨c2, by omega⟩, carry, dif_pos (by omega)]
      have c2' := (eq_zero_iff _).1 c2
      rw [show (⟨1 + 1 + 1, by omega⟩ : Fin 4) = 3 from rfl, if_neg (by omega)]
      have hv : ∀ u v w : W, val (Function.update (Function.update (Function.update x 1 u) 2 v) 3 w) =
          (x 0).toNat + u.toNat * 2 ^ 64 + v.toNat * 2 ^ 128 + w.toNat * 2 ^ 192 := by
        intro u v w
        simp [val, Function.update]
      rw [hv]
      have h3 : Function.update (Function.update x 1 (x 1 + 1)) 2 (x 2 + 1) 3 = x 3 := by simp [Function.update]
      rw [h3, c1', c2', e3]
      rw [e1] at c1'
      rw [e2] at c2'
      unfold val
      split at c1' <;> split at c2' <;> split <;> omega
    · rw [if_neg (by tauto)]
      have c2' : (x 2 + 1).toNat ≠ 0 := fun h => c2 ((eq_zero_iff _).2 h)
      have hv : ∀ u v : W, val (Function.update (Function.update x 1 u) 2 v) =
          (x 0).toNat + u.toNat * 2 ^ 64 + v.toNat * 2 ^ 128 + (x 3).toNat * 2 ^ 192 := by
        intro u v
        simp [val, Function.update]
      rw [hv, c1']
      rw [e1] at c1'
      rw [e2] at c2' ⊢
      unfold val
      have hx2 : (x 2).toNat + 1 ≠ 2 ^ 64 := by intro h; rw [if_pos h] at c2'; exact c2' rfl
      rw [if_neg hx2]
      have hx1 : (x 1).toNat + 1 = 2 ^ 64 := by by_contra h; rw [if_neg h] at c1'; omega
      clear e1 e2 e3 c1' c2'
      have hlt : (x 0).toNat + (x 1).toNat * 2 ^ 64 + (x 2).toNat * 2 ^ 128 + (x 3).toNat * 2 ^ 192 + 2 ^ 64 < 2 ^ 256 := by
        omega
      rw [Nat.mod_eq_of_lt hlt]
      omega
  · rw [show (⟨1, by omega⟩ : Fin 4) = 1 from rfl, if_neg (by tauto)]
    have c1' : (x 1 + 1).toNat ≠ 0 := fun h => c1 ((eq_zero_iff _).2 h)
    have hv : ∀ u : W, val (Function.update x 1 u) = (x 0).toNat + u.toNat * 2 ^ 64 + (x 2).toNat * 2 ^ 128 + (x 3).toNat * 2 ^ 192 := by
      intro u
      simp [val, Function.update]
    rw [hv]
    rw [e1] at c1' ⊢
    unfold val
    have hx1 : (x 1).toNat + 1 ≠ 2 ^ 64 := by intro h; rw [if_pos h] at c1'; exact c1' rfl
    rw [if_neg hx1]
    clear e1 e2 e3 c1'
    rw [Nat.mod_eq_of_lt (by omega)]
    omega

/-- C33: advancing the state by a nonzero amount is the addition of 256-bit integers, all the carries included -/
theorem C33_state_addition (s : Word) (z : W) (hz : z ≠ 0) : val (addState s z) = (val s + z.toNat) % 2 ^ 256 := by
  have hz' : z.toNat ≠ 0 := fun h => hz ((eq_zero_iff _).2 h)
  have b0 := (s 0).isLt
  have b1 := (s 1).isLt
  have b2 := (s 2).isLt
  have b3 := (s 3).isLt
  have bz := z.isLt
  have ha := BitVec.toNat_add (s 0) z
  have hv : ∀ u : W, val (Function.update s 0 u) = u.toNat + (s 1).toNat * 2 ^ 64 + (s 2).toNat * 2 ^ 128 + (s 3).toNat * 2 ^ 192 := by
    intro u
    simp [val, Function.update]
  unfold addState
  simp only [Function.update_self]
  by_cases hc : s 0 + z ≤ s 0
  · rw [if_pos hc, carry_val, hv]
    rw [BitVec.le_def, ha] at hc
    rw [ha]
    unfold val
    omega
  · rw [if_neg hc, hv]
    rw [BitVec.le_def, ha] at hc
    rw [ha]
    unfold val
    omega

/-- C33 fails for a shift of zero: the state is moved ahead of 2^64 -/
theorem C33_zero_shift_violated (s : Word) : val (addState s 0) = (val s + 2 ^ 64) % 2 ^ 256 := by
  unfold addState
  simp only [Function.update_self]
  rw [show s 0 + 0 = s 0 from BitVec.add_zero _, if_pos (BitVec.le_refl _), carry_val]
  rw [Function.update_eq_self]

theorem val_inj {s t : Word} (h : val s = val t) : s = t := by
  have b0 := (s 0).isLt
  have b1 := (s 1).isLt
  have b2 := (s 2).isLt
  have b3 := (s 3).isLt
  have c0 := (t 0).isLt
  have c1 := (t 1).isLt
  have c2 := (t 2).isLt
  have c3 := (t 3).isLt
  unfold val at h
  funext k
  apply BitVec.eq_of_toNat_eq
  fin_cases k
  · show (s 0).toNat = (t 0).toNat; omega
  · show (s 1).toNat = (t 1).toNat; omega
  · show (s 2).toNat = (t 2).toNat; omega
  · show (s 3).toNat = (t 3).toNat; omega

/-- C33: from one state different offsets always give different blocks -/
theorem C33_blocks_distinct (r : Rng) (z z' : W) (h : block r z = block r z') : z = z' := by
  have h1 := C33_encrypt_injective _ _ _ h
  have h2 := congrArg val h1
  have bz := z.isLt
  have bz' := z'.isLt
  have hb : val r.state < 2 ^ 256 := by
    have b0 := (r.state 0).isLt
    have b1 := (r.state 1).isLt
    have b2 := (r.state 2).isLt
    have b3 := (r.state 3).isLt
    unfold val; omega
  apply BitVec.eq_of_toNat_eq
  by_cases h0 : z = 0
  · by_cases h0' : z' = 0
    · rw [h0, h0']
    · have hz' : z'.toNat ≠ 0 := fun h => h0' ((eq_zero_iff _).2 h)
      rw [h0, C33_zero_shift_violated, C33_state_addition _ _ h0'] at h2
      omega
  · by_cases h0' : z' = 0
    · have hz : z.toNat ≠ 0 := fun h => h0 ((eq_zero_iff _).2 h)
      rw [h0', C33_zero_shift_violated, C33_state_addition _ _ h0] at h2
      omega
    · rw [C33_state_addition _ _ h0, C33_state_addition _ _ h0'] at h2
      omega

/-- C33: the numbers derived from two words lie in [0,1), the clamp never being needed in exact arithmetic, and determine the two words -/
theorem C33_uniform_range (a b : BitVec 32) : 0 ≤ uniform a b ∧ uniform a b < 1 ∧ uniform a b * 2 ^ 64 = (a.toNat + b.toNat * 2 ^ 32 : Nat) := by
  have ha := a.isLt
  have hb := b.isLt
  have e : ((a.toNat : ℚ) / 4294967296 + b.toNat) / 4294967296 * 2 ^ 64 = (a.toNat + b.toNat * 2 ^ 32 : Nat) := by
    push_cast; ring
  have hlt : ((a.toNat : ℚ) / 4294967296 + b.toNat) / 4294967296 < 1 := by
    have h2 : ((a.toNat + b.toNat * 2 ^ 32 : Nat) : ℚ) < 2 ^ 64 := by
      have : a.toNat + b.toNat * 2 ^ 32 < 2 ^ 64 := by omega
      exact_mod_cast this
    rw [← e] at h2
    by_contra hge
    have := mul_le_mul_of_nonneg_right (not_lt.1 hge) (by norm_num : (0 : ℚ) ≤ 2 ^ 64)
    linarith
  have hu : uniform a b = ((a.toNat : ℚ) / 4294967296 + b.toNat) / 4294967296 := by
    unfold uniform
    simp only
    rw [if_neg (not_le.2 hlt)]
  rw [hu]
  exact ⟨by positivity, hlt, e⟩

/-! ### C34: field streams -/

theorem viewStart_toNat {off V s i : Nat} (hs : s < 2 ^ 31) (h : 2 * (off * V + s + V * i) < 2 ^ 64) :
    (viewStart (BitVec.ofNat 64 off) V s i).toNat = 2 * (off * V + s + V * i) := by
  have hb : (s : Int).bmod (2 ^ 32) = s := Int.bmod_eq_of_le (by omega) (by omega)
  unfold viewStart
  rw [hb]
  rw [show BitVec.ofInt 64 (s : Int) = BitVec.ofNat 64 s from BitVec.ofInt_natCast 64 s]
  rw [show (2 : W) = BitVec.ofNat 64 2 from rfl, ← BitVec.ofNat_mul, ← BitVec.ofNat_mul, ← BitVec.ofNat_add, ← BitVec.ofNat_add, ← BitVec.ofNat_mul, BitVec.toNat_ofNat,
    Nat.mod_eq_of_lt h]

/-- one real entry requested to the stream: `idraw`-th drawer, global site, entry -/
structure Request where
  idraw : Nat
  site : Nat
  ireal : Nat

/-- number of reals per site drawn before the `k`-th drawer -/
def before (l : List Nat) (k : Nat) : Nat := (l.take k).sum

theorem offsets_eq (l : List Nat) (off : Nat) (k : Nat) (hk : k < l.length) :
    (offsets l (BitVec.ofNat 64 off))[k]? = some (BitVec.ofNat 64 (off + before l k), l[k]) := by
  induction l generalizing off k with
  | nil => simp at hk
  | cons n l ih =>
    cases k with
    | zero => simp [offsets, before]
    | succ k =>
      rw [offsets, List.getElem?_cons_succ, ← BitVec.ofNat_add, ih (off + n) k (by simpa using hk)]
      simp [before, Nat.add_assoc]

/-- C34: consider any sequence of drawers, of types of any number of reals. As long as the lattice has at most 2^31 sites and less than
2^63 numbers are drawn, each real drawn at each site uses two blocks of the generator that are used by no other real, drawer or site. -/
theorem C34_no_reuse (rng : Rng) (l : List Nat) (V : Nat) (hV : V ≤ 2 ^ 31) (hN : 2 * (l.sum * V) ≤ 2 ^ 64) (p q : Request)
    (hp : p.idraw < l.length ∧ p.site < V ∧ ∀ h : p.idraw < l.length, p.ireal < l[p.idraw])
    (hq : q.idraw < l.length ∧ q.site < V ∧ ∀ h : q.idraw < l.length, q.ireal < l[q.idraw])
    (offp offq : W × Nat) (hop : (offsets l 0)[p.idraw]? = some offp) (hoq : (offsets l 0)[q.idraw]? = some offq) (a b : Nat) (ha : a < 2) (hb : b < 2)
    (h : block rng (viewStart offp.1 V p.site p.ireal + BitVec.ofNat 64 a) = block rng (viewStart offq.1 V q.site q.ireal + BitVec.ofNat 64 b)) :
    p = q ∧ a = b := by
  have h1 := C33_blocks_distinct rng _ _ h
  have e : ∀ (r : Request) (off : W × Nat), (r.idraw < l.length ∧ r.site < V ∧ ∀ h : r.idraw < l.length, r.ireal < l[r.idraw]) →
      (offsets l 0)[r.idraw]? = some off → ∀ c, c < 2 →
      (viewStart off.1 V r.site r.ireal + BitVec.ofNat 64 c).toNat = 2 * ((before l r.idraw + r.ireal) * V + r.site) + c ∧
      before l r.idraw + r.ireal < before l r.idraw + l.getD r.idraw 0 ∧ r.site < V := by
    intro r off hr ho c hc
    have := offsets_eq l 0 r.idraw hr.1
    rw [show BitVec.ofNat 64 0 = (0 : W) from rfl, ho, Option.some.injEq] at this
    rw [this]
    simp only [Nat.zero_add]
    have hi := hr.2.2 hr.1
    have hsum : before l r.idraw + r.ireal + 1 ≤ l.sum := by
      unfold before
      have : (l.take r.idraw).sum + (l.drop r.idraw).sum = l.sum := by rw [← List.sum_append, List.take_append_drop]
      rw [List.drop_eq_getElem_cons hr.1, List.sum_cons] at this
      omega
    have hm : (before l r.idraw + r.ireal + 1) * V ≤ l.sum * V := Nat.mul_le_mul_right _ hsum
    rw [Nat.add_mul] at hm
    have hm2 : before l r.idraw * V + r.site + V * r.ireal = (before l r.idraw + r.ireal) * V + r.site := by ring
    have hlt : 2 * (before l r.idraw * V + r.site + V * r.ireal) + 1 < 2 ^ 64 := by
      rw [hm2]; have := hr.2.1; omega
    refine ⟨?_, ?_, hr.2.1⟩
    · rw [BitVec.toNat_add, viewStart_toNat (by have := hr.2.1; omega) (by omega), BitVec.toNat_ofNat, Nat.mod_eq_of_lt (show c < 2 ^ 64 by omega), Nat.mod_eq_of_lt (by omega), hm2]
    · rw [List.getD_eq_getElem _ _ hr.1]; omega
  obtain ⟨e1, r1, s1⟩ := e p offp hp hop a ha
  obtain ⟨e2, r2, s2⟩ := e q offq hq hoq b hb
  have h2 := congrArg BitVec.toNat h1
  rw [e1, e2] at h2
  have hab : a = b := by omega
  have h3 : (before l p.idraw + p.ireal) * V + p.site = (before l q.idraw + q.ireal) * V + q.site := by omega
  have hVp : 0 < V := by omega
  have h4 : before l p.idraw + p.ireal = before l q.idraw + q.ireal := by
    have : ((before l p.idraw + p.ireal) * V + p.site) / V = ((before l q.idraw + q.ireal) * V + q.site) / V := by rw [h3]
    rw [Nat.mul_comm _ V, Nat.mul_comm _ V, Nat.mul_add_div hVp, Nat.mul_add_div hVp, Nat.div_eq_of_lt s1, Nat.div_eq_of_lt s2] at this
    omega
  have h5 : p.site = q.site := by rw [h4] at h3; omega
  -- the drawers partition the stream
  have hmono : ∀ i j, i < j → j ≤ l.length → before l i + l.getD i 0 ≤ before l j := by
    intro i j hij hj
    unfold before
    have h6 : l.take j = l.take (i + 1) ++ (l.drop (i + 1)).take (j - (i + 1)) := by
      rw [← List.take_add]; congr 1; omega
    rw [h6, List.sum_append, List.take_add_one, List.sum_append, List.getD_eq_getElem _ _ (by omega), List.getElem?_eq_getElem (by omega)]
    simp
  have h6 : p.idraw = q.idraw := by
    rcases Nat.lt_trichotomy p.idraw q.idraw with hlt | heq | hgt
    · have := hmono _ _ hlt (by omega); omega
    · exact heq
    · have := hmono _ _ hgt (by omega); omega
  refine ⟨?_, hab⟩
  cases p; cases q
  simp only at *
  subst h6 h5
  simp only [Request.mk.injEq, true_and]
  omega

/-- C34: beyond 2^31 sites the `int` argument truncates the site index, and two sites get the same numbers -/
theorem C34_large_lattice_violated (rng : Rng) :
    siteReal rng 0 (3 * 2 ^ 30) (2 ^ 31) 1 = siteReal rng 0 (3 * 2 ^ 30) (2 ^ 30) 0 := by
  unfold siteReal
  rw [show viewStart 0 (3 * 2 ^ 30) (2 ^ 31) 1 = viewStart 0 (3 * 2 ^ 30) (2 ^ 30) 0 by decide]

/-- C34: what is drawn at a global site does not depend on the grid of ranks -/
theorem C34_independent_of_grid (rng : Rng) (off : W) (g1 g2 : Nissa.Lx.Geo) (ok1 : g1.Ok) (ok2 : g2.Ok) (hL : g1.L = g2.L) (c : Nissa.Lx.Coords) (hc : ∀ mu, c mu < g1.L mu) (i : Nat) :
    ∃ n1 n2, Nissa.Lx.glblxOfLoclx g1 (Nissa.Ran2.rankOf g1 c) (Nissa.Ran2.siteOf g1 c) = some n1 ∧
      Nissa.Lx.glblxOfLoclx g2 (Nissa.Ran2.rankOf g2 c) (Nissa.Ran2.siteOf g2 c) = some n2 ∧
      siteReal rng off g1.glbVol n1 i = siteReal rng off g2.glbVol n2 i := by
  obtain ⟨-, -, -, -, a⟩ := Nissa.Lx.C02_rank_and_loclx g1 ok1 c hc
  obtain ⟨-, -, -, -, b⟩ := Nissa.Lx.C02_rank_and_loclx g2 ok2 c (by rw [← hL]; exact hc)
  refine ⟨_, _, a, b, ?_⟩
  rw [Nissa.Lx.Geo.glbVol, Nissa.Lx.Geo.glbVol, hL]

theorem siteReal_range (rng : Rng) (off : W) (V s i : Nat) : 0 ≤ siteReal rng off V s i ∧ siteReal rng off V s i < 1 := by
  unfold siteReal
  have := C33_uniform_range (generateNth rng (viewStart off V s i)) (generateNth rng (viewStart off V s i + 1))
  exact ⟨this.1, this.2.1⟩

/-- C34: Z2 noise: each draw is mapped to +1 or -1 -/
theorem C34_sign (x : ℚ) (h0 : 0 ≤ x) (h1 : x < 1) : sign x = -1 ∧ x < 1 / 2 ∨ sign x = 1 ∧ 1 / 2 ≤ x := by
  unfold sign
  have hn : 0 ≤ (2 * x).num := Rat.num_nonneg.2 (by linarith)
  rw [Int.tdiv_eq_ediv_of_nonneg hn]
  have hfl : (2 * x).num / ((2 * x).den : Int) = ⌊2 * x⌋ := (Rat.floor_def (2 * x)).symm
  rw [hfl]
  by_cases hx : x < 1 / 2
  · left
    have : ⌊2 * x⌋ = 0 := Int.floor_eq_iff.2 ⟨by push_cast; linarith, by push_cast; linarith⟩
    rw [this]; exact ⟨rfl, hx⟩
  · right
    have : ⌊2 * x⌋ = 1 := Int.floor_eq_iff.2 ⟨by push_cast; linarith [not_lt.1 hx], by push_cast; linarith⟩
    rw [this]; exact ⟨rfl, not_lt.1 hx⟩

/-- a case: two drawers, of a complex and of a colour matrix, on a 8x4x4x4 lattice -/
example : (512 : Nat) ≤ 2 ^ 31 ∧ 2 * ([2, 18].sum * 512) ≤ 2 ^ 64 ∧ (offsets [2, 18] 0)[1]? = some (2, 18) := ⟨by omega, by decide, rfl⟩

end Nissa.Sitmo
