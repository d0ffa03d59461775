import Verif.Tools.PropsFindPart1
set_option linter.all false

/-! Assignements of torus directions and the mapping file. -/

namespace Nissa.Part

theorem setLoop_sublist : ∀ (l : List TDir) (w : Nat) (a : Assign) (m : Dir), (setLoop l w a m).Sublist (a m ++ l)
  | [], w, a, m => by simp [setLoop]
  | α :: r, w, a, m => by
    have := setLoop_sublist r (w / 4) (fun m => if m.val = w % 4 then a m ++ [α] else a m) m
    simp only [setLoop]
    refine this.trans ?_
    split
    · simp
    · exact List.Sublist.append_left (List.sublist_cons_self _ _) _

theorem setFromWay_nodup (w : Nat) (m : Dir) : (setFromWay w m).Nodup := by
  have := setLoop_sublist [0, 1, 2, 3, 4] w (fun _ => []) m
  exact List.Nodup.sublist this (by simp)

/-- the torus direction α goes to the lattice direction given by the α-th digit of the way in base four -/
theorem mem_setLoop : ∀ (l : List TDir) (w : Nat) (a : Assign) (m : Dir) (α : TDir),
    α ∈ setLoop l w a m ↔ α ∈ a m ∨ ∃ i, l[i]? = some α ∧ m.val = w / 4 ^ i % 4
  | [], w, a, m, α => by simp [setLoop]
  | β :: r, w, a, m, α => by
    simp only [setLoop]
    rw [mem_setLoop r]
    constructor
    · rintro (h | ⟨i, h1, h2⟩)
      · split at h
        · rcases List.mem_append.1 h with h | h
          · exact .inl h
          · exact .inr ⟨0, by simp at h; simp [h], by simpa⟩
        · exact .inl h
      · exact .inr ⟨i + 1, by simpa using h1, by rw [h2, Nat.div_div_eq_div_mul, Nat.pow_succ, Nat.mul_comm]⟩
    · rintro (h | ⟨i, h1, h2⟩)
      · left; split
        · simp [h]
        · exact h
      · cases i with
        | zero =>
          left
          rw [if_pos (by simpa using h2)]
          simp at h1; simp [h1]
        | succ i => exact .inr ⟨i, by simpa using h1, by rw [h2, Nat.div_div_eq_div_mul, Nat.pow_succ, Nat.mul_comm]⟩

theorem mem_setFromWay (w : Nat) (m : Dir) (α : TDir) : α ∈ setFromWay w m ↔ m.val = w / 4 ^ α.val % 4 := by
  unfold setFromWay
  rw [mem_setLoop]
  simp only [List.not_mem_nil, false_or]
  constructor
  · rintro ⟨i, h1, h2⟩
    have : i < 5 := by
      have := (List.getElem?_eq_some_iff.1 h1).1; simpa using this
    have e : α.val = i := by
      rcases i with _ | _ | _ | _ | _ | i <;> simp at h1 <;> first | (subst h1; rfl) | omega
    rw [e]; exact h2
  · intro h
    exact ⟨α.val, by fin_cases α <;> rfl, h⟩

/-- a proper assignement: no repetition, and every torus direction in one and only one lattice direction -/
structure Proper (a : Assign) : Prop where
  nodup : ∀ m, (a m).Nodup
  ex : ∀ α, ∃ m, α ∈ a m
  uniq : ∀ {α m m'}, α ∈ a m → α ∈ a m' → m = m'

theorem proper_setFromWay (w : Nat) : Proper (setFromWay w) where
  nodup := setFromWay_nodup w
  ex α := ⟨⟨w / 4 ^ α.val % 4, Nat.mod_lt _ (by decide)⟩, (mem_setFromWay _ _ _).2 rfl⟩
  uniq h h' := Fin.ext (((mem_setFromWay _ _ _).1 h).trans ((mem_setFromWay _ _ _).1 h').symm)

theorem Proper.perm {a : Assign} (h : Proper a) : (a 0 ++ (a 1 ++ (a 2 ++ a 3))).Perm [0, 1, 2, 3, 4] := by
  have dj : ∀ {m m' : Dir}, m ≠ m' → List.Disjoint (a m) (a m') := by
    intro m m' hne α h1 h2; exact hne (h.uniq h1 h2)
  refine (List.perm_ext_iff_of_nodup ?_ (by simp)).2 ?_
  · refine List.Nodup.append (h.nodup 0) (List.Nodup.append (h.nodup 1) (List.Nodup.append (h.nodup 2) (h.nodup 3) (dj (by decide))) ?_) ?_
    · rw [List.disjoint_append_right]; exact ⟨dj (by decide), dj (by decide)⟩
    · rw [List.disjoint_append_right, List.disjoint_append_right]; exact ⟨dj (by decide), dj (by decide), dj (by decide)⟩
  · intro α
    constructor
    · intro _; fin_cases α <;> simp
    · intro _
      obtain ⟨m, hm⟩ := h.ex α
      fin_cases m <;> simp_all

theorem Proper.prod {a : Assign} (h : Proper a) (t : Torus) :
    prodL t.grid (a 0) * prodL t.grid (a 1) * prodL t.grid (a 2) * prodL t.grid (a 3) = t.N := by
  have := (h.perm.map t.grid).prod_eq
  simp only [List.map_append, List.prod_append, List.map_cons, List.map_nil, List.prod_cons, List.prod_nil] at this
  unfold prodL Torus.N
  rw [Nat.mul_assoc, Nat.mul_assoc, this]; ring

theorem foldl_div (g : C5) : ∀ (l : List TDir) (x : Nat), l.foldl (fun x α => x / g α) x = x / prodL g l
  | [], x => by simp [prodL]
  | α :: l, x => by
    simp only [List.foldl_cons]
    rw [foldl_div g l, Nat.div_div_eq_div_mul]; simp [prodL]

/-- the rank grid is the product of the sizes assigned -/
def Exact (t : Torus) (R : C4) (a : Assign) : Prop := ∀ m, R m = prodL t.grid (a m)

theorem mul_eq_of_le {a a' b b' : Nat} (ha : 0 < a) (hb : 0 < b) (h1 : a ≤ a') (h2 : b ≤ b') (h : a * b = a' * b') : a = a' ∧ b = b' := by
  have k1 : a * b ≤ a' * b := Nat.mul_le_mul_right _ h1
  have k2 : a' * b ≤ a' * b' := Nat.mul_le_mul_left _ h2
  have e1 : a' * b = a' * b' := by omega
  have e2 : a * b = a' * b := by omega
  exact ⟨Nat.eq_of_mul_eq_mul_right hb e2, Nat.eq_of_mul_eq_mul_left (by omega) e1⟩

/-- although the check divides with truncation, together with the equality of the numbers of nodes and ranks it is exact -/
theorem exact_of_fit {t : Torus} {R : C4} {a : Assign} (hp : Proper a) (hN : rankN R = t.N) (hf : fitTheRank t R a = true) : Exact t R a := by
  simp only [fitTheRank, List.foldl_cons, List.foldl_nil, Bool.true_and, Bool.and_eq_true, beq_iff_eq, foldl_div] at hf
  have key : ∀ {x p : Nat}, x / p = 1 → 0 < p ∧ p ≤ x := by
    intro x p h
    have hp : 0 < p := by
      rcases Nat.eq_zero_or_pos p with rfl | hp
      · simp at h
      · exact hp
    refine ⟨hp, ?_⟩
    by_contra hlt
    rw [Nat.div_eq_of_lt (by omega)] at h; omega
  obtain ⟨⟨⟨f0, f1⟩, f2⟩, f3⟩ := hf
  have k0 := key f0
  have k1 := key f1
  have k2 := key f2
  have k3 := key f3
  have e := hp.prod t
  rw [← hN] at e
  unfold rankN at e
  have p01 := Nat.mul_pos k0.1 k1.1
  have p012 := Nat.mul_pos p01 k2.1
  have l01 := Nat.mul_le_mul k0.2 k1.2
  have l012 := Nat.mul_le_mul l01 k2.2
  have q1 := mul_eq_of_le p012 k3.1 l012 k3.2 e
  have q2 := mul_eq_of_le p01 k2.1 l01 k2.2 q1.1
  have q3 := mul_eq_of_le k0.1 k1.1 k0.2 k1.2 q2.1
  intro m
  fin_cases m
  · exact q3.1.symm
  · exact q3.2.symm
  · exact q2.2.symm
  · exact q1.2.symm

/-- a node of the torus -/
def InBox (g : C5) (c : C5) : Prop := ∀ α, c α < g α

/-- coordinates of the rank of a node -/
def rankPos (t : Torus) (a : Assign) (c : C5) : C4 := fun m => rankCoord t.grid c (a m) false 0

/-- rank of given coordinates, the last direction running fastest -/
def lexRank (R x : C4) : Nat := ((x 0 * R 1 + x 1) * R 2 + x 2) * R 3 + x 3

theorem rankId_eq (t : Torus) (R : C4) (a : Assign) (c : C5) : rankId t R a c = lexRank R (rankPos t a c) := by
  simp [rankId, lexRank, rankPos]

theorem lexRank_inj {R x y : C4} (hx : ∀ m, x m < R m) (hy : ∀ m, y m < R m) (h : lexRank R x = lexRank R y) : x = y := by
  unfold lexRank at h
  have k3 := mulAdd_inj (hx 3) (hy 3) h
  have k2 := mulAdd_inj (hx 2) (hy 2) k3.1
  have k1 := mulAdd_inj (hx 1) (hy 1) k2.1
  funext m
  fin_cases m
  · exact k1.1
  · exact k1.2
  · exact k2.2
  · exact k3.2

theorem mulAdd_lt {P Q a x : Nat} (ha : a < Q) (hx : x < P) : a * P + x < Q * P := by
  have : (a + 1) * P ≤ Q * P := Nat.mul_le_mul_right _ ha
  rw [Nat.add_mul] at this; omega

theorem lexRank_lt {R x : C4} (hx : ∀ m, x m < R m) : lexRank R x < rankN R :=
  mulAdd_lt (mulAdd_lt (mulAdd_lt (hx 0) (hx 1)) (hx 2)) (hx 3)

section
variable {t : Torus} {R : C4} {a : Assign} (hp : Proper a) (he : Exact t R a)
include hp he

theorem rankPos_lt {c : C5} (hc : InBox t.grid c) (m : Dir) : rankPos t a c m < R m := by
  rw [he m]; exact rankCoord_lt (fun α _ => hc α) _

theorem rankPos_inj {c c' : C5} (hc : InBox t.grid c) (hc' : InBox t.grid c') (h : rankPos t a c = rankPos t a c') : c = c' := by
  funext α
  obtain ⟨m, hm⟩ := hp.ex α
  exact rankCoord_inj (fun α _ => hc α) (fun α _ => hc' α) _ (congrFun h m) α hm

theorem rankId_inj {c c' : C5} (hc : InBox t.grid c) (hc' : InBox t.grid c') (h : rankId t R a c = rankId t R a c') : c = c' := by
  rw [rankId_eq, rankId_eq] at h
  exact rankPos_inj hp he hc hc' (lexRank_inj (rankPos_lt hp he hc) (rankPos_lt hp he hc') h)

theorem rankN_eq : rankN R = t.N := by
  rw [← hp.prod t]; unfold rankN; rw [he 0, he 1, he 2, he 3]

theorem rankPos_surj {x : C4} (hx : ∀ m, x m < R m) : ∃ c, InBox t.grid c ∧ rankPos t a c = x := by
  let F : (∀ α : TDir, Fin (t.grid α)) → (∀ m : Dir, Fin (R m)) := fun c m =>
    ⟨rankPos t a (fun α => (c α).val) m, rankPos_lt hp he (fun α => (c α).isLt) m⟩
  have inj : Function.Injective F := by
    intro c c' h
    have : (fun α => (c α).val) = (fun α => (c' α).val) := by
      refine rankPos_inj hp he (fun α => (c α).isLt) (fun α => (c' α).isLt) ?_
      funext m
      exact congrArg Fin.val (congrFun h m)
    funext α
    exact Fin.ext (congrFun this α)
  have card : Fintype.card (∀ α : TDir, Fin (t.grid α)) = Fintype.card (∀ m : Dir, Fin (R m)) := by
    simp only [Fintype.card_pi, Fintype.card_fin]
    have := rankN_eq hp he
    rw [Fin.prod_univ_five, Fin.prod_univ_four]
    exact this.symm
  obtain ⟨c, hc⟩ := ((Fintype.bijective_iff_injective_and_card F).2 ⟨inj, card⟩).2 (fun m => ⟨x m, hx m⟩)
  refine ⟨fun α => (c α).val, fun α => (c α).isLt, ?_⟩
  funext m
  exact congrArg Fin.val (congrFun hc m)

end

theorem mem_nodes (g c : C5) : c ∈ nodes g ↔ InBox g c := by
  unfold nodes
  simp only [List.mem_flatMap, List.mem_map, List.mem_range]
  constructor
  · rintro ⟨x0, h0, x1, h1, x2, h2, x3, h3, x4, h4, rfl⟩ α
    fin_cases α
    · exact h0
    · exact h1
    · exact h2
    · exact h3
    · exact h4
  · intro h
    refine ⟨c 0, h 0, c 1, h 1, c 2, h 2, c 3, h 3, c 4, h 4, ?_⟩
    funext α
    fin_cases α <;> rfl

theorem foldl_map (f : C5 → Nat) : ∀ (l : List C5) (m : Mapping) (r : Nat),
    (∀ c ∈ l, ∀ c' ∈ l, f c = f c' → c = c') →
    (∀ c ∈ l, f c = r → (l.foldl (fun m c => fun r => if r = f c then some c else m r) m) r = some c) ∧
    ((∀ c ∈ l, f c ≠ r) → (l.foldl (fun m c => fun r => if r = f c then some c else m r) m) r = m r) := by
  intro l
  induction l with
  | nil => intro m r _; simp
  | cons d l ih =>
    intro m r inj
    have inj' : ∀ c ∈ l, ∀ c' ∈ l, f c = f c' → c = c' := fun c hc c' hc' => inj c (by simp [hc]) c' (by simp [hc'])
    obtain ⟨i1, i2⟩ := ih (fun r => if r = f d then some d else m r) r inj'
    refine ⟨?_, ?_⟩
    · intro c hc hr
      simp only [List.foldl_cons]
      rcases List.mem_cons.1 hc with rfl | hc
      · by_cases hd : ∃ c' ∈ l, f c' = r
        · obtain ⟨c', h1, h2⟩ := hd
          rw [i1 c' h1 h2]
          rw [inj c' (by simp [h1]) c (by simp) (by omega)]
        · rw [i2 (fun c' h1 h2 => hd ⟨c', h1, h2⟩)]
          simp [hr]
      · exact i1 c hc hr
    · intro hr
      simp only [List.foldl_cons]
      rw [i2 (fun c hc => hr c (by simp [hc]))]
      have := hr d (by simp)
      rw [if_neg (by omega)]

/-- the mapping holds the node of each rank -/
theorem createMapping_rankId {t : Torus} {R : C4} {a : Assign} (hp : Proper a) (he : Exact t R a) {c : C5} (hc : InBox t.grid c) :
    createMapping t R a (rankId t R a c) = some c := by
  unfold createMapping
  refine (foldl_map (rankId t R a) _ _ _ ?_).1 c ((mem_nodes _ _).2 hc) rfl
  intro c hc c' hc' h
  exact rankId_inj hp he ((mem_nodes _ _).1 hc) ((mem_nodes _ _).1 hc') h

theorem read_lexRank {t : Torus} {R : C4} {a : Assign} (hp : Proper a) (he : Exact t R a) {x : C4} (hx : ∀ m, x m < R m) :
    InBox t.grid ((createMapping t R a).read (lexRank R x)) ∧ rankPos t a ((createMapping t R a).read (lexRank R x)) = x := by
  obtain ⟨c, hc, rfl⟩ := rankPos_surj hp he hx
  rw [← rankId_eq, Mapping.read, createMapping_rankId hp he hc]
  exact ⟨hc, rfl⟩

/-- every rank has coordinates -/
theorem lexRank_surj {R : C4} {r : Nat} (h : r < rankN R) : ∃ x, (∀ m, x m < R m) ∧ lexRank R x = r := by
  unfold rankN at h
  have p3 : 0 < R 3 := by
    rcases Nat.eq_zero_or_pos (R 3) with z | z
    · rw [z] at h; simp at h
    · exact z
  have h3 : r / R 3 < R 0 * R 1 * R 2 := Nat.div_lt_of_lt_mul (by rw [Nat.mul_comm]; exact h)
  have p2 : 0 < R 2 := by
    rcases Nat.eq_zero_or_pos (R 2) with z | z
    · rw [z] at h3; simp at h3
    · exact z
  have h2 : r / R 3 / R 2 < R 0 * R 1 := Nat.div_lt_of_lt_mul (by rw [Nat.mul_comm]; exact h3)
  have p1 : 0 < R 1 := by
    rcases Nat.eq_zero_or_pos (R 1) with z | z
    · rw [z] at h2; simp at h2
    · exact z
  have h1 : r / R 3 / R 2 / R 1 < R 0 := Nat.div_lt_of_lt_mul (by rw [Nat.mul_comm]; exact h2)
  refine ⟨![r / R 3 / R 2 / R 1, r / R 3 / R 2 % R 1, r / R 3 % R 2, r % R 3], ?_, ?_⟩
  · intro m
    fin_cases m
    · exact h1
    · exact Nat.mod_lt _ p1
    · exact Nat.mod_lt _ p2
    · exact Nat.mod_lt _ p3
  · show ((r / R 3 / R 2 / R 1 * R 1 + r / R 3 / R 2 % R 1) * R 2 + r / R 3 % R 2) * R 3 + r % R 3 = r
    rw [Nat.div_add_mod', Nat.div_add_mod', Nat.div_add_mod']

end Nissa.Part
