import Verif.Nice.PropsScript7

/-! # C75: the core of the language: what the semantics gives, the evaluator does -/

set_option linter.all false

namespace Nissa.Nice

variable {F : Type}

theorem complete (O : Flt F) (lr : Bool) (j : Job) (σ σ' : Stack F) (hr : Run O j σ σ') : ∀ (s : St F) (lay : Layout), Holds s lay σ → ∃ K r s' lay', Holds s' lay' σ' ∧ lay'.map (·.1) = lay.map (·.1) ∧ ∀ k, K ≤ k → does O lr k j s = .ok r s' := by
  induction hr with
  | assignOld x e σ v w hx he =>
    intro s lay hh
    obtain ⟨K, hK⟩ := exp_complete O lr hh e v he
    rcases vals_look hh.vals x with ⟨h7, h8⟩ | ⟨c, w', h7, h8, h9⟩
    · rw [h8] at hx; cases hx
    refine ⟨max K 1 + 1, ⟨some c, none⟩, _, lay, hh.put x c v h7, rfl, fun k hk => ?_⟩
    obtain ⟨k, rfl⟩ : ∃ k', k = k' + 1 + 1 := ⟨k - 2, by omega⟩
    show eval O lr (k + 1 + 1) (.node (treeS (.assign x e))) s = _
    unfold treeS
    show (eval O lr (k + 1) (.node (.id x)) >>= fun l => eval O lr (k + 1) (.node (treeE e)) >>= fun r => asRhs r >>= fun v => set_ .plain l v >>= fun _ => (pure l : M F (ER F))) s = _
    rw [bind_mk (a := ⟨some c, none⟩) (s1 := s) (by rw [eval_id, getRef_old (by rw [hh.find]; exact h7)]), rhs_elim (hK (k + 1) (by omega))]
    rfl
  | assignNew x e σ v hx he =>
    intro s lay hh
    cases lay with
    | nil => exact hh.linked.elim
    | cons a lay =>
      have hd := hh.declare x .unset
      obtain ⟨K, hK⟩ := exp_complete O lr hd e v (by rw [value_declare O hx (holds_ne hh)]; exact he)
      rcases vals_look hh.vals x with ⟨h7, h8⟩ | ⟨c, w', h7, h8, h9⟩
      · have hp := hd.put x s.cells.length v (findLay_new h7)
        rw [put_declare h8 (holds_ne hh)] at hp
        refine ⟨max K 1 + 1, ⟨some s.cells.length, none⟩, _, _, hp, by simp, fun k hk => ?_⟩
        obtain ⟨k, rfl⟩ : ∃ k', k = k' + 1 + 1 := ⟨k - 2, by omega⟩
        show eval O lr (k + 1 + 1) (.node (treeS (.assign x e))) s = _
        unfold treeS
        show (eval O lr (k + 1) (.node (.id x)) >>= fun l => eval O lr (k + 1) (.node (treeE e)) >>= fun r => asRhs r >>= fun v => set_ .plain l v >>= fun _ => (pure l : M F (ER F))) s = _
        rw [bind_mk (a := ⟨some s.cells.length, none⟩) (by rw [eval_id, getRef_new (by rw [hh.find]; exact h7)]), rhs_elim (hK (k + 1) (by omega))]
        rfl
      · rw [h8] at hx; cases hx
  | step op x σ v w hx hv =>
    intro s lay hh
    rcases vals_look hh.vals x with ⟨h7, h8⟩ | ⟨c, w', h7, h8, h9⟩
    · rw [h8] at hx; cases hx
    rw [h8] at hx
    cases hx
    refine ⟨2, ⟨none, some v⟩, _, lay, hh.put x c w h7, rfl, fun k hk => ?_⟩
    obtain ⟨k, rfl⟩ : ∃ k', k = k' + 1 + 1 := ⟨k - 2, by omega⟩
    show eval O lr (k + 1 + 1) (.node (treeS (.step op x))) s = _
    unfold treeS
    show (eval O lr (k + 1) (.node (.id x)) >>= fun r => asLhs r >>= fun c => read c >>= fun v => popVal O op v >>= fun v' => write c v' >>= fun _ => (pure ⟨none, some v⟩ : M F (ER F))) s = _
    rw [bind_mk (a := ⟨some c, none⟩) (s1 := s) (by rw [eval_id, getRef_old (by rw [hh.find]; exact h7)])]
    rw [bind_mk (m := asLhs ⟨some c, none⟩) (a := c) (s1 := s) rfl, bind_mk (a := v) (s1 := s) (by unfold read; rw [h9]), bind_mk (((sl_popVal O op v).ok s s w).mpr ⟨rfl, hv⟩)]
    rfl
  | block l σ sc σ' h ih =>
    intro s lay hh
    obtain ⟨K, r, s1, lay1, hh1, hi1, hK⟩ := ih _ _ hh.enter
    obtain ⟨sc', σ'', l', he, hh2, hi2⟩ := hh.out hh1 hi1
    cases he
    refine ⟨K + 1, r, _, l', hh2, hi2, fun k hk => ?_⟩
    obtain ⟨k, rfl⟩ : ∃ k', k = k' + 1 := ⟨k - 1, by omega⟩
    show eval O lr (k + 1) (.node (treeS (.block l))) s = _
    unfold treeS
    show pushed (evalNodes (eval O lr k) (treeL l)) s = _
    rw [pushed_eq, show evalNodes (eval O lr k) (treeL l) _ = _ from hK k (by omega)]
  | iteTrue c a b σ v sc σ' hc hv h ih =>
    intro s lay hh
    obtain ⟨L, hL⟩ := exp_complete O lr hh.enter c v hc
    obtain ⟨K, r, s1, lay1, hh1, hi1, hK⟩ := ih _ _ hh.enter
    obtain ⟨sc', σ'', l', he, hh2, hi2⟩ := hh.out hh1 hi1
    cases he
    refine ⟨max K L + 1, ER.none_, _, l', hh2, hi2, fun k hk => ?_⟩
    obtain ⟨k, rfl⟩ : ∃ k', k = k' + 1 := ⟨k - 1, by omega⟩
    show eval O lr (k + 1) (.node (treeS (.ite c a b))) s = _
    unfold treeS
    show pushed (eval O lr k (.node (treeE c)) >>= fun r => asRhs r >>= fun v => toBool O v >>= fun t => if t then eval O lr k (.node (treeS a)) >>= fun _ => (pure ER.none_ : M F (ER F)) else eval O lr k (.node (treeS b)) >>= fun _ => (pure ER.none_ : M F (ER F))) s = _
    rw [pushed_eq, rhs_elim (hL k (by omega)), bind_mk (((sl_toBool O v).ok _ _ _).mpr ⟨rfl, hv⟩), if_pos rfl, bind_mk (show eval O lr k (.node (treeS a)) _ = _ from hK k (by omega))]
    rfl
  | iteFalse c a b σ v sc σ' hc hv h ih =>
    intro s lay hh
    obtain ⟨L, hL⟩ := exp_complete O lr hh.enter c v hc
    obtain ⟨K, r, s1, lay1, hh1, hi1, hK⟩ := ih _ _ hh.enter
    obtain ⟨sc', σ'', l', he, hh2, hi2⟩ := hh.out hh1 hi1
    cases he
    refine ⟨max K L + 1, ER.none_, _, l', hh2, hi2, fun k hk => ?_⟩
    obtain ⟨k, rfl⟩ : ∃ k', k = k' + 1 := ⟨k - 1, by omega⟩
    show eval O lr (k + 1) (.node (treeS (.ite c a b))) s = _
    unfold treeS
    show pushed (eval O lr k (.node (treeE c)) >>= fun r => asRhs r >>= fun v => toBool O v >>= fun t => if t then eval O lr k (.node (treeS a)) >>= fun _ => (pure ER.none_ : M F (ER F)) else eval O lr k (.node (treeS b)) >>= fun _ => (pure ER.none_ : M F (ER F))) s = _
    rw [pushed_eq, rhs_elim (hL k (by omega)), bind_mk (((sl_toBool O v).ok _ _ _).mpr ⟨rfl, hv⟩), if_neg (by decide), bind_mk (show eval O lr k (.node (treeS b)) _ = _ from hK k (by omega))]
    rfl
  | for_ i c n b σ σ1 sc σ' hi h ihi ih =>
    intro s lay hh
    obtain ⟨K1, r1, s1, lay1, hh1, hi1, hK1⟩ := ihi _ _ hh.enter
    obtain ⟨K2, r2, s2, lay2, hh2, hi2, hK2⟩ := ih s1 lay1 hh1
    obtain ⟨sc', σ'', l', he, hh3, hi3⟩ := hh.out hh2 (hi2.trans hi1)
    cases he
    refine ⟨max K1 K2 + 1, r2, _, l', hh3, hi3, fun k hk => ?_⟩
    obtain ⟨k, rfl⟩ : ∃ k', k = k' + 1 := ⟨k - 1, by omega⟩
    show eval O lr (k + 1) (.node (treeS (.for_ i c n b))) s = _
    unfold treeS
    show pushed (eval O lr k (.node (treeS i)) >>= fun _ => eval O lr k (.loop (treeE c) (treeS n) (treeS b))) s = _
    rw [pushed_eq, bind_mk (show eval O lr k (.node (treeS i)) _ = _ from hK1 k (by omega)), show eval O lr k (.loop (treeE c) (treeS n) (treeS b)) s1 = _ from hK2 k (by omega)]
  | nil σ =>
    intro s lay hh
    refine ⟨0, ER.none_, s, lay, hh, rfl, fun k _ => ?_⟩
    show evalNodes (eval O lr k) (treeL []) s = _
    unfold treeL
    rfl
  | cons a l σ σ1 σ2 h1 h2 ih1 ih2 =>
    intro s lay hh
    obtain ⟨K1, r1, s1, lay1, hh1, hi1, hK1⟩ := ih1 s lay hh
    obtain ⟨K2, r2, s2, lay2, hh2, hi2, hK2⟩ := ih2 s1 lay1 hh1
    refine ⟨max K1 K2, r2, s2, lay2, hh2, hi2.trans hi1, fun k hk => ?_⟩
    show evalNodes (eval O lr k) (treeL (a :: l)) s = _
    unfold treeL evalNodes
    rw [isRet_tree, if_neg (by decide), bind_mk (show eval O lr k (.node (treeS a)) s = _ from hK1 k (by omega))]
    exact hK2 k (by omega)
  | loopEnd c n b σ v hc hv =>
    intro s lay hh
    obtain ⟨L, hL⟩ := exp_complete O lr hh c v hc
    refine ⟨L + 1, ER.none_, s, lay, hh, rfl, fun k hk => ?_⟩
    obtain ⟨k, rfl⟩ : ∃ k', k = k' + 1 := ⟨k - 1, by omega⟩
    show (eval O lr k (.node (treeE c)) >>= fun r => asRhs r >>= fun v => toBool O v >>= fun t => if t then eval O lr k (.node (treeS b)) >>= fun _ => eval O lr k (.node (treeS n)) >>= fun _ => eval O lr k (.loop (treeE c) (treeS n) (treeS b)) else (pure ER.none_ : M F (ER F))) s = _
    rw [rhs_elim (hL k (by omega)), bind_mk (((sl_toBool O v).ok _ _ _).mpr ⟨rfl, hv⟩), if_neg (by decide)]
    rfl
  | loopMore c n b σ v σ1 σ2 σ3 hc hv h1 h2 h3 ih1 ih2 ih3 =>
    intro s lay hh
    obtain ⟨L, hL⟩ := exp_complete O lr hh c v hc
    obtain ⟨K1, r1, s1, lay1, hh1, hi1, hK1⟩ := ih1 s lay hh
    obtain ⟨K2, r2, s2, lay2, hh2, hi2, hK2⟩ := ih2 s1 lay1 hh1
    obtain ⟨K3, r3, s3, lay3, hh3, hi3, hK3⟩ := ih3 s2 lay2 hh2
    refine ⟨max (max L K1) (max K2 K3) + 1, r3, s3, lay3, hh3, (hi3.trans hi2).trans hi1, fun k hk => ?_⟩
    obtain ⟨k, rfl⟩ : ∃ k', k = k' + 1 := ⟨k - 1, by omega⟩
    show (eval O lr k (.node (treeE c)) >>= fun r => asRhs r >>= fun v => toBool O v >>= fun t => if t then eval O lr k (.node (treeS b)) >>= fun _ => eval O lr k (.node (treeS n)) >>= fun _ => eval O lr k (.loop (treeE c) (treeS n) (treeS b)) else (pure ER.none_ : M F (ER F))) s = _
    rw [rhs_elim (hL k (by omega)), bind_mk (((sl_toBool O v).ok _ _ _).mpr ⟨rfl, hv⟩), if_pos rfl, bind_mk (show eval O lr k (.node (treeS b)) s = _ from hK1 k (by omega)), bind_mk (show eval O lr k (.node (treeS n)) s1 = _ from hK2 k (by omega))]
    exact hK3 k (by omega)

/-- **C76**.  The statements of the core (assignments, increments, blocks, `if`-`else`, `for`, on expressions of constants, variables and operators) do what they say: when the memory holds a stack of scopes, the evaluation of
a statement ends without error exactly when its meaning on the stack is defined, and then the memory holds the resulting stack; whichever order the compiler chose for the arguments of the operators -/
theorem C76_core_partial (O : Flt F) (lr : Bool) (st : Stm) (s : St F) (lay : Layout) (σ : Stack F) (hh : Holds s lay σ) :
    ((∃ k r s', eval O lr k (.node (treeS st)) s = .ok r s') ↔ ∃ σ', Run O (.stm st) σ σ') ∧
      (∀ k r s', eval O lr k (.node (treeS st)) s = .ok r s' → ∃ lay' σ', Run O (.stm st) σ σ' ∧ Holds s' lay' σ') ∧
      ∀ σ', Run O (.stm st) σ σ' → ∃ k r s' lay', eval O lr k (.node (treeS st)) s = .ok r s' ∧ Holds s' lay' σ' := by
  have h1 : ∀ k r s', eval O lr k (.node (treeS st)) s = .ok r s' → ∃ lay' σ', Run O (.stm st) σ σ' ∧ Holds s' lay' σ' := by
    intro k r s' h
    obtain ⟨lay', σ', hr, hh', _⟩ := sound O lr k (.stm st) s s' lay σ r hh h
    exact ⟨lay', σ', hr, hh'⟩
  have h2 : ∀ σ', Run O (.stm st) σ σ' → ∃ k r s' lay', eval O lr k (.node (treeS st)) s = .ok r s' ∧ Holds s' lay' σ' := by
    intro σ' hr
    obtain ⟨K, r, s', lay', hh', _, hK⟩ := complete O lr (.stm st) σ σ' hr s lay hh
    exact ⟨K, r, s', lay', hK K le_rfl, hh'⟩
  refine ⟨⟨fun ⟨k, r, s', h⟩ => ?_, fun ⟨σ', h⟩ => ?_⟩, h1, h2⟩
  · obtain ⟨_, σ', hr, _⟩ := h1 k r s' h
    exact ⟨σ', hr⟩
  · obtain ⟨k, r, s', _, h3, _⟩ := h2 σ' h
    exact ⟨k, r, s', h3⟩

/-- the names known at the start, with their values -/
def initScope (O : Flt F) : List (String × Value F) := [("M_PI", .dbl O.pi), ("print", .host .print), ("makeVec", .host .makeVec), ("forEachEl", .host .forEachEl), ("seq", .host .seq), ("sqrt", .host .sqrt), ("exp", .host .exp), ("sin", .host .sin), ("cos", .host .cos), ("tan", .host .tan), ("pow", .host .pow)]

/-- **C76**.  At the start the memory holds the scope of the predefined names, so that `C76_core_partial` applies to a whole script -/
theorem C76_core_initial (O : Flt F) : ∃ lay, Holds (initSt O) lay [initScope O] := by
  refine ⟨[(0, [("M_PI", 0), ("print", 1), ("makeVec", 2), ("forEachEl", 3), ("seq", 4), ("sqrt", 5), ("exp", 6), ("sin", 7), ("cos", 8), ("tan", 9), ("pow", 10)])], rfl, rfl, ?_, by decide⟩
  refine .cons ?_ .nil
  repeat (first | exact List.Forall₂.nil | refine List.Forall₂.cons ⟨rfl, rfl⟩ ?_)

end Nissa.Nice
