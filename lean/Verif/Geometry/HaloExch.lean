/- Helper lemmas: matching of messages and content of the receive buffers. -/
import Verif.Geometry.HaloLemmas

set_option linter.all false
namespace Nissa.Lx
open Geo
variable {g : Geo}

theorem find?_unique {A : Type} (l : List A) (P : A → Bool) (m : A) (hm : m ∈ l) (hP : P m = true)
    (hu : ∀ m' ∈ l, P m' = true → m' = m) : l.find? P = some m := by
  cases h : l.find? P with
  | none => rw [List.find?_eq_none] at h; exact absurd hP (h m hm)
  | some m' => rw [hu m' (List.mem_of_find?_eq_some h) (List.find?_some h)]

theorem foldBlocks_spec {A V : Type} (off len : A → Nat) (data : A → Nat → Option V) (l : List A) (b0 : Nat → Option V) (i : Nat) :
    (∀ a0, a0 ∈ l → (off a0 ≤ i ∧ i < off a0 + len a0) → (∀ a ∈ l, (off a ≤ i ∧ i < off a + len a) → a = a0) →
      l.foldl (fun b a => blockWrite b (off a) (len a) (data a)) b0 i = data a0 (i - off a0)) ∧
    ((∀ a ∈ l, ¬ (off a ≤ i ∧ i < off a + len a)) → l.foldl (fun b a => blockWrite b (off a) (len a) (data a)) b0 i = b0 i) := by
  induction l generalizing b0 with
  | nil => simp
  | cons a l ih =>
    simp only [List.foldl_cons]
    constructor
    · intro a0 ha0 hb hu
      by_cases hex : ∃ c ∈ l, (off c ≤ i ∧ i < off c + len c)
      · obtain ⟨c, hc, hcb⟩ := hex
        have := hu c (List.mem_cons_of_mem _ hc) hcb
        subst this
        exact (ih _).1 _ hc hb (fun a ha => hu a (List.mem_cons_of_mem _ ha))
      · have hex' : ∀ c ∈ l, ¬ (off c ≤ i ∧ i < off c + len c) := fun c hc h => hex ⟨c, hc, h⟩
        rw [(ih _).2 hex']
        have : a0 = a := by
          rcases List.mem_cons.1 ha0 with h | h
          · exact h
          · exact absurd hb (hex' a0 h)
        subst this
        unfold blockWrite; rw [if_pos hb]
    · intro hall
      rw [(ih _).2 (fun c hc => hall c (List.mem_cons_of_mem _ hc))]
      unfold blockWrite; rw [if_neg (hall a (List.mem_cons_self ..))]

/-- a fold of optional steps which always succeed -/
theorem foldl_some {A B : Type} (step : Option B → A → Option B) (f : B → A → B) (l : List A) (b : B)
    (h : ∀ a ∈ l, ∀ b, step (some b) a = some (f b a)) : l.foldl step (some b) = some (l.foldl f b) := by
  induction l generalizing b with
  | nil => rfl
  | cons a l ih =>
    simp only [List.foldl_cons]
    rw [h a (List.mem_cons_self ..)]
    exact ih _ (fun a ha => h a (List.mem_cons_of_mem _ ha))

section
variable (ok : g.Ok)
include ok

theorem mem_allRanks {r : Coords} : r ∈ allRanks g ↔ IsRank g r := by
  unfold allRanks IsRank
  rw [List.mem_map]
  constructor
  · rintro ⟨rk, hrk, rfl⟩
    exact (coordOfLx_spec ok.R_pos (List.mem_range.1 hrk)).1
  · intro h
    exact ⟨lxOfCoord r g.R, List.mem_range.2 (lxOfCoord_lt h), coordOfLx_lxOfCoord h⟩

theorem rankNeigh_isRank {r : Coords} (h : IsRank g r) (o : Fin 2) (mu : Dir) : IsRank g (rankNeigh g r o mu) := by
  intro nu
  have := ok.R_pos mu
  unfold rankNeigh
  split <;> (by_cases hm : nu = mu
             · subst hm; rw [Function.update_self]; exact Nat.mod_lt _ (ok.R_pos nu)
             · rw [Function.update_of_ne hm]; exact h nu)

omit ok in
theorem mod_back {a R : Nat} (h : a < R) : ((a + R - 1) % R + 1) % R = a := by
  by_cases h0 : a = 0
  · subst h0
    have e : (0 + R - 1) % R = R - 1 := by rw [Nat.zero_add]; exact Nat.mod_eq_of_lt (by omega)
    rw [e, show R - 1 + 1 = R by omega]; exact Nat.mod_self R
  · have e : (a + R - 1) % R = a - 1 := by
      rw [show a + R - 1 = (a - 1) + R by omega, Nat.add_mod_right]; exact Nat.mod_eq_of_lt (by omega)
    rw [e, show a - 1 + 1 = a by omega]; exact Nat.mod_eq_of_lt h

omit ok in
theorem mod_forth {a R : Nat} (h : a < R) : ((a + 1) % R + R - 1) % R = a := by
  by_cases h0 : a + 1 = R
  · rw [h0, Nat.mod_self, Nat.mod_eq_of_lt (by omega)]; omega
  · rw [Nat.mod_eq_of_lt (show a + 1 < R by omega), show a + 1 + R - 1 = a + R by omega, Nat.add_mod_right, Nat.mod_eq_of_lt h]

theorem rankNeigh_inv {r : Coords} (h : IsRank g r) (o : Fin 2) (mu : Dir) :
    rankNeigh g (rankNeigh g r (1 - o) mu) o mu = r := by
  have hr := h mu
  have fin2 : o = 0 ∨ o = 1 := by omega
  rcases fin2 with rfl | rfl
  · have : (1 - 0 : Fin 2) ≠ 0 := by decide
    unfold rankNeigh
    rw [if_pos rfl, if_neg this, Function.update_self, Function.update_idem, mod_forth hr, Function.update_eq_self]
  · have : (1 - 1 : Fin 2) = 0 := by decide
    have h1 : (1 : Fin 2) ≠ 0 := by decide
    unfold rankNeigh
    rw [if_neg h1, if_pos this, Function.update_self, Function.update_idem, mod_back hr, Function.update_eq_self]

omit ok in
theorem haloTag_inj {p q : Dir × Fin 2} (h : haloTag p = haloTag q) : p = q := by
  obtain ⟨a, b⟩ := p; obtain ⟨c, d⟩ := q
  unfold haloTag at h; simp only at h
  have : a.val = c.val ∧ b.val = d.val := by omega
  exact Prod.ext (Fin.ext this.1) (Fin.ext this.2)

omit ok in
theorem mem_haloPairs {sel : Fin 2 → Dir → Bool} {p : Dir × Fin 2} : p ∈ haloPairs g sel ↔ (1 < g.R p.1 ∧ sel p.2 p.1 = true) := by
  unfold haloPairs
  rw [List.mem_flatMap]
  constructor
  · rintro ⟨mu, _, h⟩
    split at h
    · rename_i hp
      obtain ⟨o, ho, rfl⟩ := List.mem_map.1 h
      exact ⟨(isPar_iff mu).1 hp, (List.mem_filter.1 ho).2⟩
    · simp at h
  · rintro ⟨hp, hs⟩
    refine ⟨p.1, mem_dirs p.1, ?_⟩
    rw [if_pos ((isPar_iff p.1).2 hp)]
    refine List.mem_map.2 ⟨p.2, List.mem_filter.2 ⟨?_, hs⟩, rfl⟩
    have : ∀ o : Fin 2, o ∈ ([0, 1] : List (Fin 2)) := by decide
    exact this _

/-- every receive is matched by the message of the same (direction, orientation) pair sent by the neighbour -/
theorem haloRecv_step {V : Type} (dc : Nat) (sel : Fin 2 → Dir → Bool) (sb : Coords → Nat → Option V) {r : Coords} (hr : IsRank g r)
    {p : Dir × Fin 2} (hp : p ∈ haloPairs g sel) (b : Nat → Option V) :
    haloRecvStep g dc (haloMsgs g dc sel sb) r (some b) p =
      some (blockWrite b (haloOff g dc p.1 (1 - p.2)) (haloLen g dc p.1)
        (fun k => sb (rankNeigh g r (1 - p.2) p.1) (haloOff g dc p.1 p.2 + k))) := by
  unfold haloRecvStep
  simp only [Option.bind_some]
  have hr' := rankNeigh_isRank ok hr (1 - p.2) p.1
  rw [find?_unique _ _ (Msg.mk (lxOfCoord (rankNeigh g r (1 - p.2) p.1) g.R)
      (lxOfCoord (rankNeigh g (rankNeigh g r (1 - p.2) p.1) p.2 p.1) g.R) (haloTag p)
      (fun k => sb (rankNeigh g r (1 - p.2) p.1) (haloOff g dc p.1 p.2 + k)))]
  · rfl
  · unfold haloMsgs
    rw [List.mem_flatMap]
    exact ⟨_, (mem_allRanks ok).2 hr', List.mem_map.2 ⟨p, hp, rfl⟩⟩
  · simp only [decide_eq_true_eq]
    exact ⟨trivial, by rw [rankNeigh_inv ok hr], trivial⟩
  · intro m' hm' hP
    unfold haloMsgs at hm'
    rw [List.mem_flatMap] at hm'
    obtain ⟨r2, hr2, hm2⟩ := hm'
    obtain ⟨q, hq, rfl⟩ := List.mem_map.1 hm2
    simp only [decide_eq_true_eq] at hP
    obtain ⟨h1, h2, h3⟩ := hP
    have e1 := lxOfCoord_inj ((mem_allRanks ok).1 hr2) hr' h1
    have e2 := haloTag_inj h3
    subst e2; subst e1; rfl

omit ok in
theorem haloOff_val (mu : Dir) (o : Fin 2) : haloOff g 1 mu o = o.val * g.bordVolh + g.bordOffset mu := by
  unfold haloOff; rw [Nat.div_one]; ring

/-- the divisor of the volumes divides all the blocks -/
def DcOk (g : Geo) (dc : Nat) : Prop := 0 < dc ∧ (∀ mu, dc ∣ g.bordDirVol mu) ∧ (∀ e, dc ∣ g.edgeDirVol e)

omit ok in
theorem DcOk.one : DcOk g 1 := ⟨by omega, fun _ => Nat.one_dvd _, fun _ => Nat.one_dvd _⟩

omit ok in
theorem dvd_foldl_add {dc : Nat} {f : A → Nat} (l : List A) (h : ∀ a ∈ l, dc ∣ f a) (n : Nat) (hn : dc ∣ n) : dc ∣ (l.map f).foldl (· + ·) n := by
  induction l generalizing n with
  | nil => exact hn
  | cons a l ih => exact ih (fun b hb => h b (List.mem_cons_of_mem _ hb)) _ (Nat.dvd_add hn (h a (List.mem_cons_self ..)))

omit ok in
theorem dvd_bordVolh {dc : Nat} (h : DcOk g dc) : dc ∣ g.bordVolh := dvd_foldl_add _ (fun a _ => h.2.1 a) _ (Nat.dvd_zero _)

omit ok in
theorem dvd_bordOffset {dc : Nat} (h : DcOk g dc) (mu : Dir) : dc ∣ g.bordOffset mu := dvd_foldl_add _ (fun a _ => h.2.1 a) _ (Nat.dvd_zero _)

omit ok in
theorem haloOff_mul {dc : Nat} (h : DcOk g dc) (mu : Dir) (o : Fin 2) : haloOff g dc mu o * dc = haloOff g 1 mu o := by
  unfold haloOff
  rw [Nat.div_one]
  exact Nat.div_mul_cancel (Nat.dvd_add (dvd_bordOffset h mu) (Nat.dvd_mul_right_of_dvd (dvd_bordVolh h) _))

omit ok in
theorem haloLen_mul {dc : Nat} (h : DcOk g dc) (mu : Dir) : haloLen g dc mu * dc = g.bordDirVol mu :=
  Nat.div_mul_cancel (h.2.1 mu)

omit ok in
theorem haloBlocks_disjoint1 {m n : Dir} {o p : Fin 2} {i : Nat}
    (h1 : haloOff g 1 m o ≤ i ∧ i < haloOff g 1 m o + g.bordDirVol m)
    (h2 : haloOff g 1 n p ≤ i ∧ i < haloOff g 1 n p + g.bordDirVol n) : m = n ∧ o = p := by
  rw [haloOff_val] at h1 h2
  have b1 := bordOffset_le (g := g) (m := m)
  have b2 := bordOffset_le (g := g) (m := n)
  have ho : o.val = p.val := by
    have : o.val = 0 ∨ o.val = 1 := by omega
    have : p.val = 0 ∨ p.val = 1 := by omega
    rcases ‹o.val = 0 ∨ o.val = 1› with h | h <;> rcases ‹p.val = 0 ∨ p.val = 1› with h' | h' <;> rw [h] at h1 <;> rw [h'] at h2 <;> omega
  rw [ho] at h1
  have := bordOffset_decode (g := g) (m := m) (n := n) (i := i - (p.val * g.bordVolh + g.bordOffset m))
    (j := i - (p.val * g.bordVolh + g.bordOffset n)) (by omega) (by omega) (by omega)
  exact ⟨this.1, Fin.ext ho⟩

omit ok in
/-- membership in a block survives the multiplication by the divisor -/
theorem block_mul {off len i dc off1 len1 : Nat} (h : off ≤ i ∧ i < off + len) (hdc : 0 < dc) (ho : off * dc = off1) (hl : len * dc = len1) :
    off1 ≤ i * dc ∧ i * dc < off1 + len1 := by
  subst ho; subst hl
  refine ⟨Nat.mul_le_mul_right _ h.1, ?_⟩
  rw [← Nat.add_mul]
  exact Nat.mul_lt_mul_of_pos_right h.2 hdc

omit ok in
theorem haloBlocks_disjoint {dc : Nat} (hdc : DcOk g dc) {m n : Dir} {o p : Fin 2} {i : Nat}
    (h1 : haloOff g dc m o ≤ i ∧ i < haloOff g dc m o + haloLen g dc m)
    (h2 : haloOff g dc n p ≤ i ∧ i < haloOff g dc n p + haloLen g dc n) : m = n ∧ o = p :=
  haloBlocks_disjoint1 (block_mul h1 hdc.1 (haloOff_mul hdc m o) (haloLen_mul hdc m))
    (block_mul h2 hdc.1 (haloOff_mul hdc n p) (haloLen_mul hdc n))

/-- content of the receive buffer: what the neighbour put in the opposite slot -/
theorem haloRecvBuf_spec {V : Type} {dc : Nat} (hdc : DcOk g dc) (sel : Fin 2 → Dir → Bool) (sb : Coords → Nat → Option V) {r : Coords} (hr : IsRank g r) :
    ∃ buf, haloRecvBuf g dc sel sb r = some buf ∧
      ∀ (mu : Dir) (o : Fin 2) (k : Nat), 1 < g.R mu → k < haloLen g dc mu →
        buf (haloOff g dc mu o + k) = if sel (1 - o) mu then sb (rankNeigh g r o mu) (haloOff g dc mu (1 - o) + k) else none := by
  refine ⟨_, foldl_some _ (fun b p => blockWrite b (haloOff g dc p.1 (1 - p.2)) (haloLen g dc p.1)
        (fun k => sb (rankNeigh g r (1 - p.2) p.1) (haloOff g dc p.1 p.2 + k))) _ _ (fun p hp b => haloRecv_step ok dc sel sb hr hp b), ?_⟩
  intro mu o k hmu hk
  have oo : ∀ o : Fin 2, 1 - (1 - o) = o := by decide
  by_cases hs : sel (1 - o) mu = true
  · rw [if_pos hs]
    have := (foldBlocks_spec (fun p : Dir × Fin 2 => haloOff g dc p.1 (1 - p.2)) (fun p => haloLen g dc p.1)
      (fun p k => sb (rankNeigh g r (1 - p.2) p.1) (haloOff g dc p.1 p.2 + k)) (haloPairs g sel) (fun _ => none) (haloOff g dc mu o + k)).1
      (mu, 1 - o) (mem_haloPairs.2 ⟨hmu, hs⟩) (by simp only [oo]; omega) (by
        rintro ⟨nu, q⟩ _ hb
        simp only at hb
        obtain ⟨e1, e2⟩ := haloBlocks_disjoint hdc (o := o) (m := mu) (by omega) hb
        subst e1
        rw [← oo q, ← e2])
    rw [this]
    simp only [oo, Nat.add_sub_cancel_left]
  · rw [if_neg hs]
    refine (foldBlocks_spec (fun p : Dir × Fin 2 => haloOff g dc p.1 (1 - p.2)) (fun p => haloLen g dc p.1)
      (fun p k => sb (rankNeigh g r (1 - p.2) p.1) (haloOff g dc p.1 p.2 + k)) (haloPairs g sel) (fun _ => none) (haloOff g dc mu o + k)).2 ?_
    rintro ⟨nu, q⟩ hm hb
    simp only at hb
    obtain ⟨e1, e2⟩ := haloBlocks_disjoint hdc (o := o) (m := mu) (by omega) hb
    subst e1
    have := (mem_haloPairs.1 hm).2
    simp only at this
    rw [e2, oo] at hs
    exact hs this

/-- owner of the global site of a local site -/
theorem owner_torus {r : Coords} (hr : IsRank g r) {s : ICoords} (hs : ∀ nu, Inside g s nu) :
    getLoclxAndRankOfCoords g (torus g r s) = (lxOfCoord r g.R, idx g s) := by
  have ht : ∀ mu, torus g r s mu = r mu * g.loc mu + nat s mu := by
    intro mu
    have hi := hs mu; unfold Inside at hi
    have hlt : (s mu + r mu * g.loc mu) < g.L mu := by
      have h1 : r mu * g.loc mu + g.loc mu ≤ g.L mu := by
        rw [L_eq ok]
        calc r mu * g.loc mu + g.loc mu = (r mu + 1) * g.loc mu := by ring
          _ ≤ _ := Nat.mul_le_mul_right _ (hr mu)
      push_cast [← Int.ofNat_le] at h1; omega
    have h0 : 0 ≤ s mu + r mu * g.loc mu := by have := Int.mul_nonneg (Int.natCast_nonneg (r mu)) (Int.natCast_nonneg (g.loc mu)); omega
    have := torus_cast ok r s mu
    rw [Int.emod_eq_of_lt h0 hlt] at this
    unfold nat
    zify
    rw [this]; omega
  have hn : ∀ mu, nat s mu < g.loc mu := by
    intro mu; have := hs mu; unfold Inside at this; unfold nat; omega
  have hd : ∀ mu, torus g r s mu / g.loc mu = r mu := by
    intro mu
    rw [ht, Nat.mul_comm, Nat.mul_add_div (loc_pos ok mu), Nat.div_eq_of_lt (hn mu), Nat.add_zero]
  unfold getLoclxAndRankOfCoords
  simp only [hd]
  rw [idx_loc ok hs]
  congr 1
  congr 1
  funext mu
  rw [ht]; omega

end
end Nissa.Lx
