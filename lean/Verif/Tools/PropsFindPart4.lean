import Verif.Tools.PropsFindPart3
set_option linter.all false

/-! The rank grid chosen by the tool and the mapping file written for it. -/

namespace Nissa.Part

/-! ## Specification -/

/-- an admissible grid of `N` ranks: it divides the lattice in equal parts, each of even sides, one of them a multiple of four -/
def GoodGrid (L : C4) (N : Nat) (R : C4) : Prop :=
  R 0 * R 1 * R 2 * R 3 = N ∧ ∃ l : C4, (∀ m, R m * l m = L m ∧ 2 ∣ l m) ∧ ∃ m, 4 ∣ l m

/-- the torus hosts the grid when each torus direction is given to the lattice direction `σ`: the sizes multiply to the grid, and a torus direction
which serves a lattice direction alone is closed -/
def Hosts (t : Torus) (R : C4) (σ : TDir → Dir) : Prop :=
  (∀ m, ∏ α ∈ Finset.univ.filter (fun α => σ α = m), t.grid α = R m) ∧ ∀ α, (∀ β, σ β = σ α → β = α) → t.isTorus α = true

/-- number of border sites of a rank, counted on one side -/
def border (L R : C4) : Nat := ∑ m, ∏ n ∈ Finset.univ.erase m, L n / R n
/-- sum of the squares of the borders -/
def border2 (L R : C4) : Nat := ∑ m, (∏ n ∈ Finset.univ.erase m, L n / R n) ^ 2

/-- `R` is not worse than `R'` -/
def NotWorse (L R R' : C4) : Prop :=
  border L R < border L R' ∨ (border L R = border L R' ∧ (border2 L R < border2 L R' ∨ (border2 L R = border2 L R' ∧ L 0 / R' 0 ≤ L 0 / R 0)))

/-- consecutive nodes: one torus direction moves by one, without going around -/
def StepNode (c c' : C5) : Prop := ∃ α, (∀ β, β ≠ α → c β = c' β) ∧ (c α + 1 = c' α ∨ c' α + 1 = c α)

/-- nodes joined by a link of the machine -/
def Linked (t : Torus) (c c' : C5) : Prop :=
  ∃ α, (∀ β, β ≠ α → c β = c' β) ∧ (c α + 1 = c' α ∨ c' α + 1 = c α ∨
    (t.isTorus α = true ∧ ((c α = 0 ∧ c' α + 1 = t.grid α) ∨ (c' α = 0 ∧ c α + 1 = t.grid α))))

/-! ## the grids listed -/

theorem borders_eq (L R : C4) : borders L R = (border L R, border2 L R) := by
  unfold borders border border2
  have e : ∀ m : Dir, ∏ n ∈ Finset.univ.erase m, L n / R n = [(0 : Dir), 1, 2, 3].foldl (fun b nu => if m ≠ nu then b * (L nu / R nu) else b) 1 := by
    intro m
    have : (Finset.univ.erase (0 : Dir)) = {1, 2, 3} := by decide
    have : (Finset.univ.erase (1 : Dir)) = {0, 2, 3} := by decide
    have : (Finset.univ.erase (2 : Dir)) = {0, 1, 3} := by decide
    have : (Finset.univ.erase (3 : Dir)) = {0, 1, 2} := by decide
    fin_cases m <;> simp_all <;> ring
  simp only [e, Fin.sum_univ_four, List.foldl_cons, List.foldl_nil]
  simp [Nat.pow_two]

theorem mkLister_spec {L : C4} {NR : Nat} {P : Lister} (h : mkLister L NR = some P) (hL : ∀ m, 0 < L m) :
    P.L = L ∧ 0 < NR ∧ NR ∣ rankN L ∧ (∀ p ∈ P.facts, p.Prime) ∧ P.facts.length ≤ (factorize NR).length ∧
    (P.facts = [] → NR = 1) ∧
    ((P.factorizeRank = true ∧ P.facts.prod = NR) ∨ (P.factorizeRank = false ∧ P.facts.prod * NR = rankN L)) := by
  have hV : 0 < rankN L := by
    unfold rankN
    exact Nat.mul_pos (Nat.mul_pos (Nat.mul_pos (hL 0) (hL 1)) (hL 2)) (hL 3)
  unfold mkLister at h
  simp only [← show rankN L = L 0 * L 1 * L 2 * L 3 from rfl] at h
  split at h
  · cases h
  · rename_i h1
    split at h
    · cases h
    · rename_i h2
      have hd : NR ∣ rankN L := Nat.dvd_of_mod_eq_zero (by omega)
      have hp : 0 < NR := Nat.pos_of_dvd_of_pos hd hV
      have hlv : 0 < rankN L / NR := Nat.div_pos (Nat.le_of_dvd hV hd) hp
      have f1 := factorize_spec hp
      have f2 := factorize_spec hlv
      simp only [Option.some.injEq] at h
      subst h
      refine ⟨rfl, hp, hd, ?_, ?_, ?_, ?_⟩
      · dsimp only; split
        · exact f1.2
        · exact f2.2
      · dsimp only; split <;> omega
      · dsimp only
        intro he
        split at he
        · rw [he] at f1; simpa using f1.1.symm
        · rename_i hlt
          rw [he] at f2
          have : rankN L / NR = 1 := by simpa using f2.1.symm
          omega
      · dsimp only
        split
        · left; exact ⟨by simpa, f1.1⟩
        · right
          refine ⟨by simp; omega, ?_⟩
          rw [f2.1]; exact Nat.div_mul_cancel hd

theorem rankN_mul (A B : C4) : rankN (fun m => A m * B m) = rankN A * rankN B := by unfold rankN; ring

theorem listed_iff {L : C4} {NR : Nat} {P : Lister} (h : mkLister L NR = some P) (hL : ∀ m, 0 < L m) (R : C4) :
    (∃ k < P.ncombo, ValidC P k ∧ gridOf P k = R) ↔ GoodGrid L NR R := by
  obtain ⟨eL, hp, hd, pr, _, _, cs⟩ := mkLister_spec h hL
  have hL' : ∀ m, 0 < P.L m := by rw [eL]; exact hL
  have div_local : ∀ {R : C4} {l : C4}, (∀ m, R m * l m = L m) → ∀ m, L m / R m = l m := by
    intro R l h m
    have : 0 < R m := by
      rcases Nat.eq_zero_or_pos (R m) with z | z
      · have := h m; rw [z] at this; have := hL m; omega
      · exact z
    rw [← h m]; exact Nat.mul_div_cancel_left _ this
  have ok_iff : ∀ {R l : C4}, (∀ m, R m * l m = L m) → (LocalOk L R ↔ (∀ m, 2 ∣ l m) ∧ ∃ m, 4 ∣ l m) := by
    intro R l h
    unfold LocalOk
    simp only [div_local h, Nat.dvd_iff_mod_eq_zero]
  rcases cs with ⟨fr, pf⟩ | ⟨fr, pf⟩
  · have gf : ∀ k, gridOf P k = fullR P.facts k := by intro k; unfold gridOf; rw [fr]; rfl
    constructor
    · rintro ⟨k, hk, hv, rfl⟩
      rw [validC_iff P hL', eL, gf] at hv
      rw [gf]
      have hl : ∀ m, fullR P.facts k m * (L m / fullR P.facts k m) = L m := fun m => Nat.mul_div_cancel' (hv.1 m)
      have := (ok_iff hl).1 hv.2
      exact ⟨by rw [← pf, ← fullR_prod P.facts k]; rfl, _, fun m => ⟨hl m, this.1 m⟩, this.2⟩
    · rintro ⟨hN, l, h1, h2⟩
      obtain ⟨k, hk, e⟩ := fullR_surj P.facts pr R (by rw [pf]; exact hN)
      refine ⟨k, hk, ?_, by rw [gf, e]⟩
      rw [validC_iff P hL', gf, e, eL]
      exact ⟨fun m => ⟨l m, (h1 m).1.symm⟩, (ok_iff fun m => (h1 m).1).2 ⟨fun m => (h1 m).2, h2⟩⟩
  · have gf : ∀ k m, gridOf P k m = L m / fullR P.facts k m := by intro k m; unfold gridOf; rw [fr, eL]; rfl
    constructor
    · rintro ⟨k, hk, hv, rfl⟩
      rw [validC_iff P hL', eL] at hv
      have hl : ∀ m, gridOf P k m * fullR P.facts k m = L m := fun m => by rw [gf]; exact Nat.div_mul_cancel (hv.1 m)
      have := (ok_iff hl).1 hv.2
      refine ⟨?_, _, fun m => ⟨hl m, this.1 m⟩, this.2⟩
      have e : rankN (gridOf P k) * P.facts.prod = P.facts.prod * NR := by
        rw [pf, ← fullR_prod P.facts k, ← rankN_mul]; congr 1; funext m; exact hl m
      have p0 : 0 < P.facts.prod := by
        rcases Nat.eq_zero_or_pos P.facts.prod with z | z
        · rw [z, Nat.zero_mul] at pf
          have : 0 < rankN L := Nat.mul_pos (Nat.mul_pos (Nat.mul_pos (hL 0) (hL 1)) (hL 2)) (hL 3)
          omega
        · exact z
      exact Nat.eq_of_mul_eq_mul_left p0 (by rw [← e, Nat.mul_comm]; rfl)
    · rintro ⟨hN, l, h1, h2⟩
      have hl : rankN l = P.facts.prod := by
        have : rankN R * rankN l = NR * P.facts.prod := by
          rw [Nat.mul_comm NR, pf, ← rankN_mul]; congr 1; funext m; exact (h1 m).1
        exact Nat.eq_of_mul_eq_mul_left hp (by rw [← this]; congr 1; exact hN.symm)
      obtain ⟨k, hk, e⟩ := fullR_surj P.facts pr l hl
      have hg : gridOf P k = R := by
        funext m
        rw [gf, e]
        exact div_local (R := l) (l := R) (fun m => by rw [Nat.mul_comm]; exact (h1 m).1) m
      refine ⟨k, hk, ?_, hg⟩
      rw [validC_iff P hL', hg, e, eL]
      exact ⟨fun m => ⟨R m, by rw [Nat.mul_comm]; exact (h1 m).1.symm⟩, (ok_iff fun m => (h1 m).1).2 ⟨fun m => (h1 m).2, h2⟩⟩

/-! ## assignements -/

/-- the direction given by a way to a torus direction -/
def wayDir (w : Nat) (α : TDir) : Dir := ⟨w / 4 ^ α.val % 4, Nat.mod_lt _ (by decide)⟩

theorem mem_way (w : Nat) (m : Dir) (α : TDir) : α ∈ setFromWay w m ↔ wayDir w α = m := by
  rw [mem_setFromWay, wayDir, Fin.ext_iff]; exact eq_comm

theorem prodL_way (t : Torus) (w : Nat) (m : Dir) :
    prodL t.grid (setFromWay w m) = ∏ α ∈ Finset.univ.filter (fun α => wayDir w α = m), t.grid α := by
  unfold prodL
  rw [← List.prod_toFinset _ (setFromWay_nodup w m)]
  refine Finset.prod_congr ?_ (fun _ _ => rfl)
  ext α
  simp [mem_way]

theorem isTorus_way (t : Torus) (w : Nat) : assignIsTorus t (setFromWay w) = true ↔
    ∀ α, (∀ β, wayDir w β = wayDir w α → β = α) → t.isTorus α = true := by
  have one : ∀ m, (loneOk t (setFromWay w m) = true) ↔ ∀ α, setFromWay w m = [α] → t.isTorus α = true := by
    intro m
    rcases setFromWay w m with _ | ⟨x, _ | ⟨y, l⟩⟩ <;> simp [loneOk]
  have all : assignIsTorus t (setFromWay w) = true ↔ ∀ m α, setFromWay w m = [α] → t.isTorus α = true := by
    unfold assignIsTorus
    simp only [List.foldl_cons, List.foldl_nil, Bool.true_and, Bool.and_eq_true]
    rw [one, one, one, one]
    constructor
    · rintro ⟨⟨⟨h0, h1⟩, h2⟩, h3⟩ m
      fin_cases m <;> assumption
    · intro h; exact ⟨⟨⟨h 0, h 1⟩, h 2⟩, h 3⟩
  rw [all]
  have sing : ∀ m α, setFromWay w m = [α] ↔ (wayDir w α = m ∧ ∀ β, wayDir w β = m → β = α) := by
    intro m α
    constructor
    · intro h
      refine ⟨(mem_way w m α).1 (by rw [h]; simp), ?_⟩
      intro β hβ
      have := (mem_way w m β).2 hβ
      rw [h] at this; simpa using this
    · rintro ⟨h1, h2⟩
      have hm := (mem_way w m α).2 h1
      have nd := setFromWay_nodup w m
      have sub : ∀ β ∈ setFromWay w m, β = α := fun β hβ => h2 β ((mem_way w m β).1 hβ)
      rcases hl : setFromWay w m with _ | ⟨x, _ | ⟨y, l⟩⟩
      · rw [hl] at hm; simp at hm
      · rw [hl] at sub; rw [sub x (by simp)]
      · rw [hl] at sub nd
        have e1 := sub x (by simp)
        have e2 := sub y (by simp)
        rw [e1, e2] at nd; simp at nd
  constructor
  · intro h α hα
    exact h (wayDir w α) α ((sing _ _).2 ⟨rfl, hα⟩)
  · intro h m α hα
    obtain ⟨e, h2⟩ := (sing m α).1 hα
    exact h α (fun β hβ => h2 β (by rw [hβ, e]))

theorem fit_way {t : Torus} {R : C4} (hN : rankN R = t.N) (hg : ∀ α, 0 < t.grid α) (w : Nat) :
    fitTheRank t R (setFromWay w) = true ↔ Exact t R (setFromWay w) := by
  refine ⟨exact_of_fit (proper_setFromWay w) hN, ?_⟩
  intro he
  have pos : ∀ m, R m / prodL t.grid (setFromWay w m) = 1 := by
    intro m
    rw [he m]
    refine Nat.div_self ?_
    unfold prodL
    refine Nat.pos_of_ne_zero (List.prod_ne_zero ?_)
    intro h0
    obtain ⟨α, _, hα⟩ := List.mem_map.1 h0
    have := hg α
    omega
  simp only [fitTheRank, List.foldl_cons, List.foldl_nil, foldl_div, pos]; rfl

/-- a way fits when its directions host the grid -/
theorem way_iff {t : Torus} {R : C4} (hN : rankN R = t.N) (hg : ∀ α, 0 < t.grid α) (w : Nat) :
    (fitTheRank t R (setFromWay w) = true ∧ assignIsTorus t (setFromWay w) = true) ↔ Hosts t R (wayDir w) := by
  rw [fit_way hN hg, isTorus_way]
  unfold Hosts Exact
  simp only [prodL_way]
  constructor
  · rintro ⟨h1, h2⟩; exact ⟨fun m => (h1 m).symm, h2⟩
  · rintro ⟨h1, h2⟩; exact ⟨fun m => (h1 m).symm, h2⟩

/-- every distribution is a way, the last one gives all to the last direction -/
theorem way_surj (σ : TDir → Dir) : ∃ w < 1024, wayDir w = σ ∧ (w = 1023 → ∀ α, σ α = 3) := by
  have h0 := (σ 0).isLt
  have h1 := (σ 1).isLt
  have h2 := (σ 2).isLt
  have h3 := (σ 3).isLt
  have h4 := (σ 4).isLt
  refine ⟨(σ 0).val + 4 * (σ 1).val + 16 * (σ 2).val + 64 * (σ 3).val + 256 * (σ 4).val, by omega, ?_, ?_⟩
  · funext α
    apply Fin.ext
    fin_cases α <;> simp [wayDir] <;> omega
  · intro h α
    apply Fin.ext
    fin_cases α <;> simp <;> omega

theorem findAssign_spec (t : Torus) (R : C4) : ∀ (n iway : Nat), 1024 - iway ≤ n → iway < 1024 →
    ∃ w, iway ≤ w ∧ w < 1024 ∧ findAssign t R iway = (setFromWay w, w + 1) ∧
      (w ≠ 1023 → fitTheRank t R (setFromWay w) = true ∧ assignIsTorus t (setFromWay w) = true) ∧
      ∀ v, iway ≤ v → v < w → ¬ (fitTheRank t R (setFromWay v) = true ∧ assignIsTorus t (setFromWay v) = true) := by
  intro n
  induction n with
  | zero => intro i h1 h2; omega
  | succ n ih =>
    intro i h1 h2
    rw [findAssign]
    by_cases hc : (!fitTheRank t R (setFromWay i) || !assignIsTorus t (setFromWay i)) = true ∧ i + 1 < 1024
    · rw [if_pos hc]
      obtain ⟨w, a, b, c, d, e⟩ := ih (i + 1) (by omega) hc.2
      refine ⟨w, by omega, b, c, d, ?_⟩
      intro v v1 v2
      rcases Nat.eq_or_lt_of_le v1 with rfl | v1
      · rintro ⟨q1, q2⟩
        rw [q1, q2] at hc; simp at hc
      · exact e v v1 v2
    · rw [if_neg hc]
      refine ⟨i, Nat.le_refl _, h2, rfl, ?_, fun v v1 v2 => by omega⟩
      intro hne
      by_contra hq
      apply hc
      refine ⟨?_, by omega⟩
      rcases h1 : fitTheRank t R (setFromWay i) <;> rcases h2 : assignIsTorus t (setFromWay i) <;> simp_all

/-- the grid is hosted by a distribution that does not give all to the last direction -/
def Found (t : Torus) (R : C4) : Prop := ∃ σ, Hosts t R σ ∧ ∃ α, σ α ≠ 3

theorem findAssign_iff {t : Torus} {R : C4} (hN : rankN R = t.N) (hg : ∀ α, 0 < t.grid α) :
    ((findAssign t R 0).2 ≠ 1024 → ∃ w, (findAssign t R 0).1 = setFromWay w ∧ Hosts t R (wayDir w)) ∧
    ((findAssign t R 0).2 ≠ 1024 ↔ Found t R) := by
  obtain ⟨w, _, w2, e, hf, hb⟩ := findAssign_spec t R _ 0 (Nat.le_refl _) (by decide)
  rw [e]
  have p1 : w + 1 ≠ 1024 → Hosts t R (wayDir w) := fun h => (way_iff hN hg w).1 (hf (by omega))
  refine ⟨fun h => ⟨w, rfl, p1 h⟩, ?_, ?_⟩
  · intro h
    refine ⟨_, p1 h, ?_⟩
    by_contra hall
    have : ∀ α, wayDir w α = 3 := fun α => by by_contra hα; exact hall ⟨α, hα⟩
    have k0 := congrArg Fin.val (this 0)
    have k1 := congrArg Fin.val (this 1)
    have k2 := congrArg Fin.val (this 2)
    have k3 := congrArg Fin.val (this 3)
    have k4 := congrArg Fin.val (this 4)
    simp [wayDir] at k0 k1 k2 k3 k4
    dsimp only at h
    omega
  · rintro ⟨σ, hσ, α, hα⟩ h1
    obtain ⟨v, v2, rfl, hl⟩ := way_surj σ
    have : v ≠ 1023 := fun h => hα (hl h α)
    dsimp only at h1
    exact hb v (by omega) (by omega) ((way_iff hN hg v).2 hσ)

/-! ## the champion -/

theorem notWorse_refl (L R : C4) : NotWorse L R R := by unfold NotWorse; omega
theorem notWorse_trans {L A B C : C4} (h1 : NotWorse L A B) (h2 : NotWorse L B C) : NotWorse L A C := by
  unfold NotWorse at *; omega

/-- what the champion of a list is -/
def ChampOk (t : Torus) (L : C4) (l : List C4) : Option Champ → Prop
    | none => ∀ R ∈ l, ¬ Found t R
    | some b => b.rank ∈ l ∧ Found t b.rank ∧ b.bord = border L b.rank ∧ b.bord2 = border2 L b.rank ∧
        (∃ w, b.assign = setFromWay w ∧ Hosts t b.rank (wayDir w)) ∧ ∀ R ∈ l, Found t R → NotWorse L b.rank R

theorem champOf_spec {t : Torus} (L : C4) (hg : ∀ α, 0 < t.grid α) : ∀ l : List C4, (∀ R ∈ l, rankN R = t.N) → ChampOk t L l (champOf t L l)
  | [], _ => by simp [champOf, ChampOk]
  | R :: l, hl => by
    have ih := champOf_spec L hg l (fun R hR => hl R (by simp [hR]))
    have hN := hl R (by simp)
    obtain ⟨f1, f2⟩ := findAssign_iff hN hg
    show ChampOk t L (R :: l) (consider t L (champOf t L l) R)
    unfold consider
    dsimp only
    by_cases hf : (findAssign t R 0).2 ≠ 1024
    · rw [if_pos hf]
      have fR := f2.1 hf
      have aR := f1 hf
      unfold challenge
      rw [borders_eq]
      dsimp only
      cases hc : champOf t L l with
      | none =>
        rw [hc] at ih
        refine ⟨by simp, fR, rfl, rfl, aR, ?_⟩
        intro R' hR' hF
        rcases List.mem_cons.1 hR' with rfl | hR'
        · exact notWorse_refl _ _
        · exact absurd hF (ih R' hR')
      | some b =>
        rw [hc] at ih
        change _ ∧ _ ∧ _ ∧ _ ∧ _ ∧ _ at ih
        obtain ⟨i1, i2, i3, i4, i5, i6⟩ := ih
        dsimp only
        split
        · rename_i hbetter
          refine ⟨by simp, fR, rfl, rfl, aR, ?_⟩
          intro R' hR' hF
          rcases List.mem_cons.1 hR' with rfl | hR'
          · exact notWorse_refl _ _
          · refine notWorse_trans ?_ (i6 R' hR' hF)
            show NotWorse L R b.rank; unfold NotWorse; rw [i3, i4] at hbetter; omega
        · rename_i hworse
          refine ⟨by simp [i1], i2, i3, i4, i5, ?_⟩
          intro R' hR' hF
          rcases List.mem_cons.1 hR' with rfl | hR'
          · unfold NotWorse; rw [i3, i4] at hworse; omega
          · exact i6 R' hR' hF
    · rw [if_neg hf]
      have nf : ¬ Found t R := fun h => hf (f2.2 h)
      cases hc : champOf t L l with
      | none =>
        rw [hc] at ih
        intro R' hR'
        rcases List.mem_cons.1 hR' with rfl | hR'
        · exact nf
        · exact ih R' hR'
      | some b =>
        rw [hc] at ih
        change _ ∧ _ ∧ _ ∧ _ ∧ _ ∧ _ at ih
        refine ⟨by simp [ih.1], ih.2.1, ih.2.2.1, ih.2.2.2.1, ih.2.2.2.2.1, ?_⟩
        intro R' hR' hF
        rcases List.mem_cons.1 hR' with rfl | hR'
        · exact absurd hF nf
        · exact ih.2.2.2.2.2 R' hR' hF

end Nissa.Part
