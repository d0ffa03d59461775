import Verif.Input.Scan
import Mathlib.Tactic
set_option linter.all false
namespace Nissa.Scan

/-- A number that can be written with six significant digits. -/
def SixDigits (x : ℚ) : Prop := ∃ m e : ℤ, |m| < 10 ^ 6 ∧ x = m * (10 : ℚ) ^ e

theorem six_eq {x : ℚ} (h : SixDigits x) : six x = x := by
  obtain ⟨m, e, hm, rfl⟩ := h
  unfold six
  by_cases h0 : (m : ℚ) * 10 ^ e = 0
  · rw [if_pos h0]; exact h0.symm
  rw [if_neg h0]
  have hm0 : m ≠ 0 := by rintro rfl; simp at h0
  have hpos : (0 : ℚ) < |(m : ℚ)| := by positivity
  have habs : |(m : ℚ) * 10 ^ e| = |(m : ℚ)| * 10 ^ e := by
    rw [abs_mul, abs_of_pos (a := (10 : ℚ) ^ e) (by positivity)]
  set L := Int.log 10 |(m : ℚ) * 10 ^ e| with hL
  have hle : ((10 : ℕ) : ℚ) ^ L ≤ |(m : ℚ) * 10 ^ e| := Int.zpow_log_le_self (by norm_num) (by rw [habs]; positivity)
  have hlt : L - 5 ≤ e := by
    by_contra hc
    have h1 : (10 : ℚ) ^ (e + 6) ≤ (10 : ℚ) ^ L := zpow_le_zpow_right₀ (by norm_num) (by omega)
    have h2 : (10 : ℚ) ^ (e + 6) ≤ |(m : ℚ)| * 10 ^ e := by
      rw [← habs]; push_cast at hle; linarith
    rw [zpow_add₀ (by norm_num)] at h2
    have h3 : (10 : ℚ) ^ (6 : ℤ) ≤ |(m : ℚ)| := by
      have hp : (0 : ℚ) < 10 ^ e := by positivity
      nlinarith
    have h4 : |(m : ℚ)| < 10 ^ 6 := by exact_mod_cast hm
    norm_num at h3 h4
    linarith
  obtain ⟨j, hj⟩ := Int.le.dest hlt
  have hx : (m : ℚ) * 10 ^ e / 10 ^ (L - 5) = ((m * 10 ^ j : ℤ) : ℚ) := by
    rw [← hj, zpow_add₀ (by norm_num)]
    push_cast
    rw [zpow_natCast]
    field_simp
  rw [hx, round_intCast, ← hx]
  field_simp

theorem sixDigits_int_div (m : ℤ) (n : ℕ) (h : |m| < 10 ^ 6) : SixDigits ((m : ℚ) / 10 ^ n) :=
  ⟨m, -(n : ℤ), h, by rw [zpow_neg, zpow_natCast]; rfl⟩

/-- Every real number of the value has at most six digits. -/
def Digits : Val → Prop
  | .real x => SixDigits x
  | .reals l => ∀ x ∈ l, SixDigits x
  | _ => True

/-- A block whose parameters were all left as constructed or set by the scan. -/
def Read (e : Env) (b : Blk) (x : Asg) : Prop :=
  ∀ k, x k = dflt b k ∨ (k ≠ .L ∧ ∃ ty t, tyOf b k = some ty ∧ accept e ty t = some (x k))

/-- The text printed for a value that was read is read as the same value. -/
theorem accept_tokOf {e : Env} {ty : Ty} {t : Tok} {v : Val} (h : accept e ty t = some v)
    (hd : Digits v) : accept e ty (tokOf v) = some v := by
  have hsix : ∀ l : List ℚ, (∀ x ∈ l, SixDigits x) → l.map six = l := by
    intro l hl
    induction l with
    | nil => rfl
    | cons a l ih =>
      rw [List.map_cons, six_eq (hl a (by simp)), ih fun x hx => hl x (by simp [hx])]
  unfold accept at h
  split at h
  all_goals first
    | (injection h with h; subst h; simp only [tokOf, accept, Digits] at *; done)
    | skip
  · injection h with h; subst h
    simp only [tokOf, accept, six_eq hd]
  · injection h with h; subst h
    simp only [tokOf, accept, six_eq hd]
  · injection h with h; subst h
    simp only [tokOf, accept]
    split <;> simp_all
  · split at h <;> simp at h
    subst h; simp [tokOf, accept]
  · split at h <;> simp at h
    subst h; simp_all [tokOf, accept]
  · split at h <;> simp at h
    subst h; simp_all [tokOf, accept]
  · split at h <;> simp at h
    subst h; simp_all [tokOf, accept]
  · split at h <;> simp at h
    rename_i l hl
    subst h; simp only [tokOf, accept, hsix l hd]; simp [hl]
  · split at h <;> simp at h
    rename_i l hl
    subst h; simp only [tokOf, accept]; rw [if_pos hl]
  · split at h <;> simp at h
    subst h; simp_all [tokOf, accept]
  · simp at h

theorem scanFrom_append (e : Env) (s : St) (a b : List Tok) :
    scanFrom e s (a ++ b) = (scanFrom e s a).bind fun s' => scanFrom e s' b := by
  induction a generalizing s with
  | nil => rfl
  | cons t a ih =>
    rw [List.cons_append, scanFrom, scanFrom]
    cases stepAll e s t with
    | none => rfl
    | some s' => exact ih s'

theorem takes_of_ty {c : Ctx} {b : Blk} {k : Kw} {ty : Ty} (hb : blk c = some b)
    (ht : tyOf b k = some ty) : takes c k = true := by
  unfold takes; rw [hb]; simp [ht]

theorem resolve_self {c : Ctx} {k : Kw} (h : takes c k = true) : resolve c k = some c := by
  unfold resolve
  cases c <;> simp [chain, List.find?_cons, h]

theorem inner_not_ty : ∀ (c : Ctx) (b : Blk) (k : Kw), blk c = some b → k ∈ inner c →
    tyOf b k = none := by
  intro c b k hb hk
  rcases c with _ | _ | _ | _ | _ | _ | _ | _ | _ | _ | _ | _ | g | _ | g | ⟨g, k'⟩ | _ | _ | _ <;>
    simp only [inner, List.mem_cons, List.not_mem_nil, or_false] at hk <;>
    first
    | (exfalso; exact hk)
    | (simp only [blk] at hb; first
        | (injection hb with hb; subst hb
           rcases hk with rfl | rfl | rfl | rfl <;> decide +kernel)
        | (injection hb with hb; subst hb; subst hk; decide +kernel)
        | (cases g <;> simp only [blk] at hb <;> injection hb with hb <;> subst hb <;> subst hk <;>
            decide +kernel)
        | (cases hb))

theorem header_none {c : Ctx} {k : Kw} {d : Driver} (h : k ∉ inner c) : header c k d = none := by
  unfold header
  split <;> first
    | rfl
    | (exfalso; apply h; decide +kernel)

/-- One printed line read in its block. -/
theorem scan_row {e : Env} {c : Ctx} {b : Blk} {k : Kw} {ty : Ty} {t : Tok} {v : Val} (d : Driver)
    (hb : blk c = some b) (ht : tyOf b k = some ty) (hm : k ≠ .method)
    (ha : accept e ty t = some v) :
    scanFrom e ⟨d, c, .idle⟩ [.kw k, .eq, t] = some ⟨write c (assign k v) d, c, .idle⟩ := by
  have hi : k ∉ inner c := fun hk => by rw [inner_not_ty c b k hb hk] at ht; cases ht
  have hg : ¬ (c = .global ∧ k = .analysis) := by
    rintro ⟨rfl, -⟩; cases hb
  have h1 : stepAll e ⟨d, c, .idle⟩ (.kw k) = some ⟨d, c, .key c k⟩ := by
    simp only [stepAll, step, stepKw, resolve_self (takes_of_ty hb ht), hg, if_false, header_none hi]
  have h2 : stepAll e ⟨d, c, .key c k⟩ .eq = some ⟨d, c, .val c k⟩ := by
    simp only [stepAll, step, if_neg hm, if_true]
  have h3 : stepAll e ⟨d, c, .val c k⟩ t = some ⟨write c (assign k v) d, c, .idle⟩ := by
    have hnc : c ≠ .global := by rintro rfl; cases hb
    unfold stepAll
    split
    · rename_i heq; simp only [Pend.val.injEq] at heq; exact absurd heq.1 hnc
    · simp only [step, stepVal, if_neg hi, hb, ht, ha]
  simp only [scanFrom, h1, h2, h3]

end Nissa.Scan
