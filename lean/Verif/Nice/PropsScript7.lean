import Verif.Nice.PropsScript6

/-! # C75: the core of the language agrees with the semantics on a stack of scopes -/

set_option linter.all false

namespace Nissa.Nice

variable {F : Type}

/-- a computation that does not use the memory -/
def Stateless {α : Type} (m : M F α) : Prop := (∃ v, m = fun s => .ok v s) ∨ (m = fun _ => .err) ∨ (m = fun _ => .ub)

theorem Stateless.ok {α : Type} {m : M F α} (h : Stateless m) (s s' : St F) (v : α) : m s = .ok v s' ↔ s' = s ∧ pureVal m = some v := by
  rcases h with ⟨w, rfl⟩ | rfl | rfl
  · simp only [Res.ok.injEq, pureVal, Option.some.injEq]
    exact ⟨fun h => ⟨h.2.symm, h.1⟩, fun h => ⟨h.2, h.1.symm⟩⟩
  · simp [pureVal]
  · simp [pureVal]

theorem sl_pure {α : Type} (v : α) : Stateless (pure v : M F α) := Or.inl ⟨v, rfl⟩
theorem sl_err {α : Type} : Stateless (err : M F α) := Or.inr (Or.inl rfl)
theorem sl_ub {α : Type} : Stateless (ub : M F α) := Or.inr (Or.inr rfl)
theorem sl_bool (b : Bool) : Stateless (boolRes b : M F (Value F)) := sl_pure _
theorem sl_int (i : Int) : Stateless (intRes i : M F (Value F)) := by
  unfold intRes
  split
  · exact sl_pure _
  · exact sl_ub

theorem sl_intOp (op : Bop) (a b : Int) : Stateless (intOp op a b : M F (Value F)) := by
  cases op <;> unfold intOp <;> dsimp only <;> first | exact sl_int _ | exact sl_bool _ | skip
  · split
    · exact sl_ub
    · exact sl_int _
  · split
    · exact sl_ub
    · exact sl_int _

theorem sl_binop (O : Flt F) (op : Bop) (a b : Value F) : Stateless (binop O op a b) := by
  have hd : ∀ x y, Stateless (dblOp O op x y) := by
    intro x y
    cases op <;> unfold dblOp <;> dsimp only <;> first | exact sl_bool _ | exact sl_pure _ | exact sl_err
  have hs : ∀ x y, Stateless (strOp op x y : M F (Value F)) := by
    intro x y
    cases op <;> unfold strOp <;> dsimp only <;> first | exact sl_bool _ | exact sl_pure _ | exact sl_err
  have hu : Stateless (unsetOp op : M F (Value F)) := by
    cases op <;> unfold unsetOp <;> dsimp only <;> first | exact sl_bool _ | exact sl_err
  unfold binop
  split <;> try first | exact sl_intOp _ _ _ | exact hd _ _ | exact hs _ _ | exact hu
  split <;> first | exact sl_bool _ | exact sl_err

theorem sl_unop (O : Flt F) (op : Uop) (a : Value F) : Stateless (unop O op a) := by
  unfold unop
  split <;> try first | exact sl_int _ | exact sl_pure _ | exact sl_err
  split <;> first | exact sl_bool _ | exact sl_err

theorem sl_popVal (O : Flt F) (op : Pop) (a : Value F) : Stateless (popVal O op a) := by
  unfold popVal
  split <;> first | exact sl_int _ | exact sl_pure _ | exact sl_err

theorem sl_toBool (O : Flt F) (a : Value F) : Stateless (toBool O a) := by
  unfold toBool
  split <;> first | exact sl_pure _ | exact sl_err

theorem bind_mk {α β : Type} {m : M F α} {f : α → M F β} {s s1 : St F} {a : α} (h : m s = .ok a s1) : (m >>= f) s = f a s1 := by
  rw [bind_def, h]

/-- the value of an expression, as in the evaluator -/
def rhs (O : Flt F) (lr : Bool) (k : Nat) (e : Exp) : M F (Value F) := eval O lr k (.node (treeE e)) >>= asRhs

theorem rhs_mk {O : Flt F} {lr : Bool} {k : Nat} {e : Exp} {s s1 s2 : St F} {r : ER F} {v : Value F} (h : eval O lr k (.node (treeE e)) s = .ok r s1) (h2 : asRhs r s1 = .ok v s2) : rhs O lr k e s = .ok v s2 := by
  unfold rhs
  rw [bind_mk h, h2]

theorem asRhs_val (v : Value F) (s : St F) : asRhs ⟨none, some v⟩ s = .ok v s := rfl

theorem asRhs_ref {s : St F} {c : Nat} {v : Value F} (h : s.cells[c]? = some v) : asRhs (⟨some c, none⟩ : ER F) s = match v with | .unset => .err | v => .ok v s := by
  show (read c >>= ensureInitialized : M F (Value F)) s = _
  rw [bind_mk (a := v) (s1 := s) (by unfold read; rw [h])]
  cases v <;> rfl

theorem getRef_old {s : St F} {x : String} {c : Nat} (h : s.find x = some c) : getRefOrInsert x s = .ok c s := by
  unfold getRefOrInsert
  rw [h]

theorem getRef_new {s : St F} {x : String} (h : s.find x = none) : getRefOrInsert x s = .ok s.cells.length { s with cells := s.cells ++ [.unset], envs := addVar s.envs s.cur x s.cells.length } := by
  unfold getRefOrInsert
  rw [h]

theorem eval_id (O : Flt F) (lr : Bool) (k : Nat) (x : String) (s : St F) : eval O lr (k + 1) (.node (.id x)) s = match getRefOrInsert x s with | .ok c s' => .ok ⟨some c, none⟩ s' | .err => .err | .ub => .ub | .more => .more := by
  show (getRefOrInsert x >>= fun c => (pure ⟨some c, none⟩ : M F (ER F))) s = _
  rw [bind_def]
  cases getRefOrInsert x s <;> rfl

theorem exp_sound (O : Flt F) (lr : Bool) {s : St F} {lay : Layout} {σ : Stack F} (hh : Holds s lay σ) (e : Exp) (k : Nat) (v : Value F) (s' : St F) (h : rhs O lr k e s = .ok v s') : s' = s ∧ value O σ e = some v := by
  induction e generalizing k v s' with
  | num i =>
    cases k with
    | zero => cases h
    | succ k =>
      cases h
      exact ⟨rfl, rfl⟩
  | var x =>
    cases k with
    | zero => cases h
    | succ k =>
      obtain ⟨r, s1, h1, h2⟩ := bind_ok h
      rw [show (treeE (Exp.var x) : Node F) = .id x from rfl, eval_id] at h1
      rcases vals_look hh.vals x with ⟨h3, h4⟩ | ⟨c, w, h3, h4, h5⟩
      · rw [getRef_new (by rw [hh.find]; exact h3)] at h1
        cases h1
        rw [asRhs_ref (v := .unset) (by simp)] at h2
        cases h2
      · rw [getRef_old (by rw [hh.find]; exact h3)] at h1
        cases h1
        rw [asRhs_ref h5] at h2
        simp only [value, h4]
        cases w <;> first | (cases h2; exact ⟨rfl, rfl⟩) | cases h2
  | un op a ih =>
    cases k with
    | zero => cases h
    | succ k =>
      obtain ⟨r, s1, h1, h2⟩ := bind_ok h
      obtain ⟨ra, s2, h3, h4⟩ := bind_ok (show (eval O lr k (.node (treeE a)) >>= fun r => asRhs r >>= fun w => unop O op w >>= fun v => (pure ⟨none, some v⟩ : M F (ER F))) s = _ from h1)
      obtain ⟨w, s3, h5, h6⟩ := bind_ok h4
      obtain ⟨u, s4, h7, h8⟩ := bind_ok h6
      cases h8
      cases h2
      obtain ⟨rfl, hv⟩ := ih k w s3 (rhs_mk h3 h5)
      obtain ⟨rfl, hu⟩ := ((sl_unop O op w).ok _ _ _).mp h7
      exact ⟨rfl, by simp only [value, hv]; exact hu⟩
  | bin op a b iha ihb =>
    cases k with
    | zero => cases h
    | succ k =>
      obtain ⟨r, s1, h1, h2⟩ := bind_ok h
      have h1' : (if lr then eval O lr k (.node (treeE a)) >>= fun r => asRhs r >>= fun w => eval O lr k (.node (treeE b)) >>= fun r => asRhs r >>= fun u => binop O op w u >>= fun v => (pure ⟨none, some v⟩ : M F (ER F))
        else eval O lr k (.node (treeE b)) >>= fun r => asRhs r >>= fun u => eval O lr k (.node (treeE a)) >>= fun r => asRhs r >>= fun w => binop O op w u >>= fun v => (pure ⟨none, some v⟩ : M F (ER F))) s = .ok r s1 := h1
      cases lr with
      | true =>
        rw [if_pos rfl] at h1'
        obtain ⟨ra, s2, h3, h4⟩ := bind_ok h1'
        obtain ⟨w, s3, h5, h6⟩ := bind_ok h4
        obtain ⟨rfl, hv⟩ := iha k w s3 (rhs_mk h3 h5)
        obtain ⟨rb, s4, h7, h8⟩ := bind_ok h6
        obtain ⟨u, s5, h9, h10⟩ := bind_ok h8
        obtain ⟨rfl, hu⟩ := ihb k u s5 (rhs_mk h7 h9)
        obtain ⟨t, s6, h11, h12⟩ := bind_ok h10
        cases h12
        cases h2
        obtain ⟨rfl, ht⟩ := ((sl_binop O op w u).ok _ _ _).mp h11
        exact ⟨rfl, by simp only [value, hv, hu]; exact ht⟩
      | false =>
        rw [if_neg (by decide)] at h1'
        obtain ⟨ra, s2, h3, h4⟩ := bind_ok h1'
        obtain ⟨w, s3, h5, h6⟩ := bind_ok h4
        obtain ⟨rfl, hv⟩ := ihb k w s3 (rhs_mk h3 h5)
        obtain ⟨rb, s4, h7, h8⟩ := bind_ok h6
        obtain ⟨u, s5, h9, h10⟩ := bind_ok h8
        obtain ⟨rfl, hu⟩ := iha k u s5 (rhs_mk h7 h9)
        obtain ⟨t, s6, h11, h12⟩ := bind_ok h10
        cases h12
        cases h2
        obtain ⟨rfl, ht⟩ := ((sl_binop O op u w).ok _ _ _).mp h11
        exact ⟨rfl, by simp only [value, hv, hu]; exact ht⟩

theorem rhs_elim {O : Flt F} {lr : Bool} {k : Nat} {e : Exp} {s s' : St F} {v : Value F} {β : Type} (h : rhs O lr k e s = .ok v s') (f : Value F → M F β) : (eval O lr k (.node (treeE e)) >>= fun r => asRhs r >>= f) s = f v s' := by
  obtain ⟨r, s1, h1, h2⟩ := bind_ok h
  rw [bind_mk h1, bind_mk h2]

theorem exp_complete (O : Flt F) (lr : Bool) {s : St F} {lay : Layout} {σ : Stack F} (hh : Holds s lay σ) (e : Exp) (v : Value F) (h : value O σ e = some v) : ∃ K, ∀ k, K ≤ k → rhs O lr k e s = .ok v s := by
  induction e generalizing v with
  | num i =>
    cases h
    refine ⟨1, fun k hk => ?_⟩
    obtain ⟨k, rfl⟩ : ∃ k', k = k' + 1 := ⟨k - 1, by omega⟩
    rfl
  | var x =>
    refine ⟨1, fun k hk => ?_⟩
    obtain ⟨k, rfl⟩ : ∃ k', k = k' + 1 := ⟨k - 1, by omega⟩
    simp only [value] at h
    rcases vals_look hh.vals x with ⟨h3, h4⟩ | ⟨c, w, h3, h4, h5⟩
    · rw [h4] at h; cases h
    · rw [h4] at h
      have h1 := eval_id O lr k x s
      rw [getRef_old (by rw [hh.find]; exact h3)] at h1
      refine rhs_mk h1 ?_
      rw [asRhs_ref h5]
      cases w <;> first | (cases h; rfl) | cases h
  | un op a ih =>
    simp only [value] at h
    cases ha : value O σ a with
    | none => rw [ha] at h; cases h
    | some w =>
      rw [ha] at h
      obtain ⟨K, hK⟩ := ih w ha
      refine ⟨K + 1, fun k hk => ?_⟩
      obtain ⟨k, rfl⟩ : ∃ k', k = k' + 1 := ⟨k - 1, by omega⟩
      have h1 : eval O lr (k + 1) (.node (treeE (.un op a))) s = .ok ⟨none, some v⟩ s := by
        show (eval O lr k (.node (treeE a)) >>= fun r => asRhs r >>= fun w => unop O op w >>= fun v => (pure ⟨none, some v⟩ : M F (ER F))) s = _
        rw [rhs_elim (hK k (by omega)), bind_mk (((sl_unop O op w).ok s s v).mpr ⟨rfl, h⟩)]
        rfl
      exact rhs_mk h1 rfl
  | bin op a b iha ihb =>
    simp only [value] at h
    cases ha : value O σ a with
    | none => rw [ha] at h; cases h
    | some w =>
      rw [ha] at h
      cases hb : value O σ b with
      | none => rw [hb] at h; cases h
      | some u =>
        rw [hb] at h
        obtain ⟨K, hK⟩ := iha w ha
        obtain ⟨L, hL⟩ := ihb u hb
        refine ⟨max K L + 1, fun k hk => ?_⟩
        obtain ⟨k, rfl⟩ : ∃ k', k = k' + 1 := ⟨k - 1, by omega⟩
        have h1 : eval O lr (k + 1) (.node (treeE (.bin op a b))) s = .ok ⟨none, some v⟩ s := by
          show (if lr then eval O lr k (.node (treeE a)) >>= fun r => asRhs r >>= fun w => eval O lr k (.node (treeE b)) >>= fun r => asRhs r >>= fun u => binop O op w u >>= fun v => (pure ⟨none, some v⟩ : M F (ER F))
            else eval O lr k (.node (treeE b)) >>= fun r => asRhs r >>= fun u => eval O lr k (.node (treeE a)) >>= fun r => asRhs r >>= fun w => binop O op w u >>= fun v => (pure ⟨none, some v⟩ : M F (ER F))) s = _
          have hop := bind_mk (f := fun v => (pure ⟨none, some v⟩ : M F (ER F))) (((sl_binop O op w u).ok s s v).mpr ⟨rfl, h⟩)
          split
          · rw [rhs_elim (hK k (by omega)), rhs_elim (hL k (by omega)), hop]
            rfl
          · rw [rhs_elim (hL k (by omega)), rhs_elim (hK k (by omega)), hop]
            rfl
        exact rhs_mk h1 rfl

theorem look1_append_none {sc : List (String × Value F)} {x : String} (h : look1 sc x = none) (v : Value F) (y : String) : look1 (sc ++ [(x, v)]) y = if y = x then some v else look1 sc y := by
  induction sc with
  | nil =>
    simp only [List.nil_append, look1]
    by_cases e : y = x
    · rw [if_pos e, if_pos e.symm]
    · rw [if_neg e, if_neg fun h => e h.symm]
  | cons p l ih =>
    simp only [look1] at h
    split at h
    · cases h
    · rename_i hp
      simp only [List.cons_append, look1]
      by_cases e : p.1 = y
      · rw [if_pos e, if_pos e, if_neg (fun h => hp (by rw [e, h]))]
      · rw [if_neg e, if_neg e]
        exact ih h

theorem look_declare {σ : Stack F} {x : String} (h : look σ x = none) (hσ : σ ≠ []) (v : Value F) (y : String) : look (declare σ x v) y = if y = x then some v else look σ y := by
  cases σ with
  | nil => exact absurd rfl hσ
  | cons sc σ =>
    simp only [look] at h
    split at h
    · cases h
    · rename_i h1
      simp only [declare, look]
      rw [look1_append_none h1]
      by_cases e : y = x
      · simp [e]
      · simp [e]

theorem value_declare (O : Flt F) {σ : Stack F} {x : String} (h : look σ x = none) (hσ : σ ≠ []) (e : Exp) : value O (declare σ x .unset) e = value O σ e := by
  induction e with
  | num i => rfl
  | var y =>
    simp only [value]
    rw [look_declare h hσ]
    by_cases e : y = x
    · rw [e, if_pos rfl, h]
    · rw [if_neg e]
  | un op a ih => simp only [value, ih]
  | bin op a b iha ihb => simp only [value, iha, ihb]

theorem put1_append_none {sc : List (String × Value F)} {x : String} (h : look1 sc x = none) (u v : Value F) : put1 (sc ++ [(x, u)]) x v = sc ++ [(x, v)] := by
  induction sc with
  | nil => simp [put1]
  | cons p l ih =>
    simp only [look1] at h
    split at h
    · cases h
    · rename_i hp
      simp only [List.cons_append, put1]
      rw [if_neg hp, ih h]

theorem put_declare {σ : Stack F} {x : String} (h : look σ x = none) (hσ : σ ≠ []) (u v : Value F) : put (declare σ x u) x v = declare σ x v := by
  cases σ with
  | nil => exact absurd rfl hσ
  | cons sc σ =>
    simp only [look] at h
    split at h
    · cases h
    · rename_i h1
      simp only [declare, put]
      rw [look1_append_none h1, if_pos rfl, put1_append_none h1]

theorem pushed_eq {α : Type} (m : M F α) (s : St F) : pushed m s = match m { s with envs := s.envs ++ [⟨some s.cur, []⟩], cur := s.envs.length } with | .ok a s' => .ok a { s' with cur := s.cur } | .err => .err | .ub => .ub | .more => .more := rfl

theorem pushed_ok {α : Type} {m : M F α} {s s' : St F} {a : α} (h : pushed m s = .ok a s') : ∃ s1, m { s with envs := s.envs ++ [⟨some s.cur, []⟩], cur := s.envs.length } = .ok a s1 ∧ s' = { s1 with cur := s.cur } := by
  rw [pushed_eq] at h
  split at h
  · rename_i a' s1 h1
    cases h
    exact ⟨s1, h1, rfl⟩
  · cases h
  · cases h
  · cases h

/-- what the evaluator does for a job -/
def does (O : Flt F) (lr : Bool) (k : Nat) : Job → M F (ER F)
  | .stm st => eval O lr k (.node (treeS st))
  | .seq l => evalNodes (eval O lr k) (treeL l)
  | .loop c n b => eval O lr k (.loop (treeE c) (treeS n) (treeS b))

theorem isRet_tree (st : Stm) : isRet (treeS st : Node F) = false := by cases st <;> simp [treeS, isRet]

theorem holds_ne {s : St F} {lay : Layout} {σ : Stack F} (h : Holds s lay σ) : σ ≠ [] := by
  rintro rfl
  cases h.vals
  exact h.linked

theorem holds_split {s : St F} {lay lay0 : Layout} {σ : Stack F} {e : Nat} (h : Holds s lay σ) (hi : lay.map (·.1) = e :: lay0.map (·.1)) : ∃ a l sc σ', lay = a :: l ∧ σ = sc :: σ' ∧ l.map (·.1) = lay0.map (·.1) := by
  cases lay with
  | nil => cases hi
  | cons a l =>
    cases hv : h.vals with
    | @cons _ sc _ σ' h1 h2 =>
      simp only [List.map_cons, List.cons.injEq] at hi
      exact ⟨a, l, sc, σ', rfl, rfl, hi.2⟩

theorem head_ids {l lay0 : Layout} (h : l.map (·.1) = lay0.map (·.1)) : l.head?.map (·.1) = lay0.head?.map (·.1) := by
  rw [← List.head?_map, ← List.head?_map, h]

/-- leaving the scope entered -/
theorem Holds.out {s0 s : St F} {lay lay0 : Layout} {σ σ0 : Stack F} (h0 : Holds s0 lay0 σ0) (h : Holds s lay σ) (hi : lay.map (·.1) = s0.envs.length :: lay0.map (·.1)) : ∃ sc σ' l, σ = sc :: σ' ∧ Holds { s with cur := s0.cur } l σ' ∧ l.map (·.1) = lay0.map (·.1) := by
  obtain ⟨a, l, sc, σ', rfl, rfl, h1⟩ := holds_split h hi
  exact ⟨sc, σ', l, rfl, h.leave s0.cur (by rw [head_ids h1]; exact h0.head), h1⟩

theorem lookup_new {l : List (String × Nat)} {x : String} (hl : lookup l x = none) (c : Nat) : lookup (l ++ [(x, c)]) x = some c := by
  induction l with
  | nil => simp [lookup_cons]
  | cons p l ih =>
    rw [lookup_cons] at hl
    split at hl
    · cases hl
    · rename_i hp
      rw [List.cons_append, lookup_cons, if_neg hp]
      exact ih hl

theorem findLay_new {a : Nat × List (String × Nat)} {lay : Layout} {x : String} {c : Nat} (h : findLay (a :: lay) x = none) : findLay ((a.1, a.2 ++ [(x, c)]) :: lay) x = some c := by
  unfold findLay at h ⊢
  split at h
  · cases h
  · rename_i hl
    dsimp only
    rw [lookup_new hl]

theorem assign_sound (O : Flt F) (lr : Bool) (k : Nat) (x : String) (e : Exp) (s s' : St F) (lay : Layout) (σ : Stack F) (r : ER F) (hh : Holds s lay σ) (h : eval O lr (k + 1) (.node (treeS (.assign x e))) s = .ok r s') :
    ∃ lay' σ', Run O (.stm (.assign x e)) σ σ' ∧ Holds s' lay' σ' ∧ lay'.map (·.1) = lay.map (·.1) := by
  have h' : (eval O lr k (.node (.id x)) >>= fun l => eval O lr k (.node (treeE e)) >>= fun r => asRhs r >>= fun v => set_ .plain l v >>= fun _ => (pure l : M F (ER F))) s = .ok r s' := by
    rw [← h]
    unfold treeS
    rfl
  obtain ⟨l, s1, h1, h2⟩ := bind_ok h'
  cases k with
  | zero => cases h1
  | succ k =>
    rw [eval_id] at h1
    obtain ⟨re, s2, h3, h4⟩ := bind_ok h2
    obtain ⟨v, s3, h5, h6⟩ := bind_ok h4
    have hr := rhs_mk h3 h5
    rcases vals_look hh.vals x with ⟨h7, h8⟩ | ⟨c, w, h7, h8, h9⟩
    · rw [getRef_new (by rw [hh.find]; exact h7)] at h1
      cases h1
      cases lay with
      | nil => exact hh.linked.elim
      | cons a lay =>
        have hd := hh.declare x .unset
        obtain ⟨rfl, hv⟩ := exp_sound O lr hd e _ v s3 hr
        rw [value_declare O h8 (holds_ne hh)] at hv
        cases h6
        refine ⟨(a.1, a.2 ++ [(x, s.cells.length)]) :: lay, _, .assignNew x e σ v h8 hv, ?_, ?_⟩
        · have hp := hd.put x s.cells.length v (findLay_new h7)
          rw [put_declare h8 (holds_ne hh)] at hp
          exact hp
        · simp
    · rw [getRef_old (by rw [hh.find]; exact h7)] at h1
      cases h1
      obtain ⟨rfl, hv⟩ := exp_sound O lr hh e _ v s3 hr
      cases h6
      exact ⟨_, _, .assignOld x e σ v w h8 hv, hh.put x c v h7, rfl⟩

theorem step_sound (O : Flt F) (lr : Bool) (k : Nat) (op : Pop) (x : String) (s s' : St F) (lay : Layout) (σ : Stack F) (r : ER F) (hh : Holds s lay σ) (h : eval O lr (k + 1) (.node (treeS (.step op x))) s = .ok r s') :
    ∃ lay' σ', Run O (.stm (.step op x)) σ σ' ∧ Holds s' lay' σ' ∧ lay'.map (·.1) = lay.map (·.1) := by
  have h' : (eval O lr k (.node (.id x)) >>= fun r => asLhs r >>= fun c => read c >>= fun v => popVal O op v >>= fun v' => write c v' >>= fun _ => (pure ⟨none, some v⟩ : M F (ER F))) s = .ok r s' := by
    rw [← h]
    unfold treeS
    rfl
  obtain ⟨l, s1, h1, h2⟩ := bind_ok h'
  cases k with
  | zero => cases h1
  | succ k =>
    rw [eval_id] at h1
    obtain ⟨c', s2, h3, h4⟩ := bind_ok h2
    obtain ⟨v, s3, h5, h6⟩ := bind_ok h4
    obtain ⟨u, s4, h10, h11⟩ := bind_ok h6
    rcases vals_look hh.vals x with ⟨h7, h8⟩ | ⟨c, w, h7, h8, h9⟩
    · rw [getRef_new (by rw [hh.find]; exact h7)] at h1
      cases h1
      cases h3
      unfold read at h5
      simp at h5
      obtain ⟨rfl, rfl⟩ := h5
      cases op <;> cases h10
    · rw [getRef_old (by rw [hh.find]; exact h7)] at h1
      cases h1
      cases h3
      unfold read at h5
      rw [h9] at h5
      cases h5
      obtain ⟨rfl, hu⟩ := ((sl_popVal O op v).ok _ _ _).mp h10
      cases h11
      exact ⟨_, _, .step op x σ v u h8 hu, hh.put x _ u h7, rfl⟩

theorem sound (O : Flt F) (lr : Bool) (k : Nat) : ∀ (j : Job) (s s' : St F) (lay : Layout) (σ : Stack F) (r : ER F), Holds s lay σ → does O lr k j s = .ok r s' → ∃ lay' σ', Run O j σ σ' ∧ Holds s' lay' σ' ∧ lay'.map (·.1) = lay.map (·.1) := by
  -- the sequences, from the statements
  have hseq : ∀ k, (∀ (st : Stm) (s s' : St F) (lay : Layout) (σ : Stack F) (r : ER F), Holds s lay σ → eval O lr k (.node (treeS st)) s = .ok r s' → ∃ lay' σ', Run O (.stm st) σ σ' ∧ Holds s' lay' σ' ∧ lay'.map (·.1) = lay.map (·.1)) →
      ∀ (l : List Stm) (s s' : St F) (lay : Layout) (σ : Stack F) (r : ER F), Holds s lay σ → evalNodes (eval O lr k) (treeL l) s = .ok r s' → ∃ lay' σ', Run O (.seq l) σ σ' ∧ Holds s' lay' σ' ∧ lay'.map (·.1) = lay.map (·.1) := by
    intro k hst l
    induction l with
    | nil =>
      intro s s' lay σ r hh h
      unfold treeL at h
      cases h
      exact ⟨lay, σ, .nil σ, hh, rfl⟩
    | cons a l ih =>
      intro s s' lay σ r hh h
      unfold treeL evalNodes at h
      rw [isRet_tree, if_neg (by decide)] at h
      obtain ⟨r1, s1, h1, h2⟩ := bind_ok h
      obtain ⟨lay1, σ1, hr1, hh1, hi1⟩ := hst a s s1 lay σ r1 hh h1
      obtain ⟨lay2, σ2, hr2, hh2, hi2⟩ := ih s1 s' lay1 σ1 r hh1 h2
      exact ⟨lay2, σ2, .cons a l σ σ1 σ2 hr1 hr2, hh2, hi2.trans hi1⟩
  induction k with
  | zero =>
    intro j s s' lay σ r hh h
    cases j with
    | stm st => cases h
    | loop c n b => cases h
    | seq l => exact hseq 0 (fun st s s' lay σ r hh h => by cases h) l s s' lay σ r hh h
  | succ k ih =>
    have hst : ∀ (st : Stm) (s s' : St F) (lay : Layout) (σ : Stack F) (r : ER F), Holds s lay σ → eval O lr (k + 1) (.node (treeS st)) s = .ok r s' → ∃ lay' σ', Run O (.stm st) σ σ' ∧ Holds s' lay' σ' ∧ lay'.map (·.1) = lay.map (·.1) := by
      intro st s s' lay σ r hh h
      cases st with
      | assign x e => exact assign_sound O lr k x e s s' lay σ r hh h
      | step op x => exact step_sound O lr k op x s s' lay σ r hh h
      | block l =>
        unfold treeS at h
        obtain ⟨s1, h1, rfl⟩ := pushed_ok (show pushed (evalNodes (eval O lr k) (treeL l)) s = .ok r s' from h)
        obtain ⟨lay1, σ1, hr1, hh1, hi1⟩ := ih (.seq l) _ s1 _ _ r hh.enter h1
        obtain ⟨sc, σ', l', rfl, hh2, hi2⟩ := hh.out hh1 hi1
        exact ⟨l', σ', .block l σ sc σ' hr1, hh2, hi2⟩
      | ite c a b =>
        unfold treeS at h
        obtain ⟨s1, h1, rfl⟩ := pushed_ok (show pushed (eval O lr k (.node (treeE c)) >>= fun r => asRhs r >>= fun v => toBool O v >>= fun t => if t then eval O lr k (.node (treeS a)) >>= fun _ => (pure ER.none_ : M F (ER F)) else eval O lr k (.node (treeS b)) >>= fun _ => (pure ER.none_ : M F (ER F))) s = .ok r s' from h)
        obtain ⟨rc, s2, h2, h3⟩ := bind_ok h1
        obtain ⟨v, s3, h4, h5⟩ := bind_ok h3
        obtain ⟨rfl, hv⟩ := exp_sound O lr hh.enter c k v s3 (rhs_mk h2 h4)
        obtain ⟨t, s4, h6, h7⟩ := bind_ok h5
        obtain ⟨rfl, ht⟩ := ((sl_toBool O v).ok _ _ _).mp h6
        cases t with
        | true =>
          rw [if_pos rfl] at h7
          obtain ⟨ra, s5, h8, h9⟩ := bind_ok h7
          cases h9
          obtain ⟨lay1, σ1, hr1, hh1, hi1⟩ := ih (.stm a) _ _ _ _ ra hh.enter h8
          obtain ⟨sc, σ', l', rfl, hh2, hi2⟩ := hh.out hh1 hi1
          exact ⟨l', σ', .iteTrue c a b σ v sc σ' hv ht hr1, hh2, hi2⟩
        | false =>
          rw [if_neg (by decide)] at h7
          obtain ⟨ra, s5, h8, h9⟩ := bind_ok h7
          cases h9
          obtain ⟨lay1, σ1, hr1, hh1, hi1⟩ := ih (.stm b) _ _ _ _ ra hh.enter h8
          obtain ⟨sc, σ', l', rfl, hh2, hi2⟩ := hh.out hh1 hi1
          exact ⟨l', σ', .iteFalse c a b σ v sc σ' hv ht hr1, hh2, hi2⟩
      | for_ i c n b =>
        unfold treeS at h
        obtain ⟨s1, h1, rfl⟩ := pushed_ok (show pushed (eval O lr k (.node (treeS i)) >>= fun _ => eval O lr k (.loop (treeE c) (treeS n) (treeS b))) s = .ok r s' from h)
        obtain ⟨ri, s2, h2, h3⟩ := bind_ok h1
        obtain ⟨lay1, σ1, hr1, hh1, hi1⟩ := ih (.stm i) _ s2 _ _ ri hh.enter h2
        obtain ⟨lay2, σ2, hr2, hh2, hi2⟩ := ih (.loop c n b) s2 s1 _ _ r hh1 h3
        obtain ⟨sc, σ', l', rfl, hh3, hi3⟩ := hh.out hh2 (hi2.trans hi1)
        exact ⟨l', σ', .for_ i c n b σ σ1 sc σ' hr1 hr2, hh3, hi3⟩
    intro j s s' lay σ r hh h
    cases j with
    | stm st => exact hst st s s' lay σ r hh h
    | seq l => exact hseq (k + 1) hst l s s' lay σ r hh h
    | loop c n b =>
      have h1 : (eval O lr k (.node (treeE c)) >>= fun r => asRhs r >>= fun v => toBool O v >>= fun t => if t then eval O lr k (.node (treeS b)) >>= fun _ => eval O lr k (.node (treeS n)) >>= fun _ => eval O lr k (.loop (treeE c) (treeS n) (treeS b)) else (pure ER.none_ : M F (ER F))) s = .ok r s' := h
      obtain ⟨rc, s2, h2, h3⟩ := bind_ok h1
      obtain ⟨v, s3, h4, h5⟩ := bind_ok h3
      obtain ⟨rfl, hv⟩ := exp_sound O lr hh c k v s3 (rhs_mk h2 h4)
      obtain ⟨t, s4, h6, h7⟩ := bind_ok h5
      obtain ⟨rfl, ht⟩ := ((sl_toBool O v).ok _ _ _).mp h6
      cases t with
      | true =>
        rw [if_pos rfl] at h7
        obtain ⟨ra, s5, h8, h9⟩ := bind_ok h7
        obtain ⟨rb, s6, h10, h11⟩ := bind_ok h9
        obtain ⟨lay1, σ1, hr1, hh1, hi1⟩ := ih (.stm b) _ s5 _ _ ra hh h8
        obtain ⟨lay2, σ2, hr2, hh2, hi2⟩ := ih (.stm n) _ s6 _ _ rb hh1 h10
        obtain ⟨lay3, σ3, hr3, hh3, hi3⟩ := ih (.loop c n b) _ s' _ _ r hh2 h11
        exact ⟨lay3, σ3, .loopMore c n b σ v σ1 σ2 σ3 hv ht hr1 hr2 hr3, hh3, (hi3.trans hi2).trans hi1⟩
      | false =>
        rw [if_neg (by decide)] at h7
        cases h7
        exact ⟨lay, σ, .loopEnd c n b σ v hv ht, hh, rfl⟩

end Nissa.Nice
