import Verif.Stencil.Paths

set_option linter.all false

namespace Nissa.Paths
open Nissa.Lx Nissa.Sten Nissa.Gauge Nissa.Su3f Matrix

/-- one movement: first of a path, path to be summed to the previous, link daggered, site and direction of the link -/
structure Mv where
  first : Bool
  summ : Bool
  dag : Bool
  x : Coords
  mu : Dir

/-- movements of a path; the flags of the first one are `f`,`s` -/
def movesOf (g : Geo) : Bool → Bool → Coords → List Move → List Mv
  | _, _, _, [] => []
  | f, s, x, (mu, true) :: l => ⟨f, s, false, x, mu⟩ :: movesOf g false false (tshift g x mu 1) l
  | f, s, x, (mu, false) :: l => ⟨f, s, true, tshift g x mu (-1), mu⟩ :: movesOf g false false (tshift g x mu (-1)) l

theorem movesOf_length (g : Geo) (f s : Bool) (x : Coords) (l : List Move) : (movesOf g f s x l).length = l.length := by
  induction l generalizing f s x with
  | nil => rfl
  | cons m l ih => obtain ⟨mu, d⟩ := m; cases d <;> simp [movesOf, ih]

def isLoc (g : Geo) (rank : Nat) (m : Mv) : Prop := (getLoclxAndRankOfCoords g m.x).1 = rank
instance (g : Geo) (rank : Nat) (m : Mv) : Decidable (isLoc g rank m) := by unfold isLoc; infer_instance

def flags (m : Mv) : Nat := (if m.first then 1 else 0) + (if m.dag then 2 else 0) + (if m.summ then 8 else 0)

/-- word of a movement before the non local ones are numbered -/
def word (g : Geo) (rank : Nat) (m : Mv) : Nat :=
  flags m + if isLoc g rank m then ((getLoclxAndRankOfCoords g m.x).2 * 4 + m.mu) * 16 else 0

def nonlocs (g : Geo) (rank : Nat) : Nat → List Mv → List NL
  | _, [] => []
  | i, m :: l => (if isLoc g rank m then [] else [NL.set g rank i m.x m.mu]) ++ nonlocs g rank (i + 1) l

theorem nonlocs_append (g : Geo) (rank : Nat) (i : Nat) (a b : List Mv) :
    nonlocs g rank i (a ++ b) = nonlocs g rank i a ++ nonlocs g rank (i + a.length) b := by
  induction a generalizing i with
  | nil => simp [nonlocs]
  | cons m a ih => simp only [List.cons_append, nonlocs, ih, List.append_assoc, List.length_cons]; congr 3; omega

/-- what has been described so far -/
structure Inv (g : Geo) (rank : Nat) (s : St) (done : List Mv) : Prop where
  mov : s.curMov = done.length
  lfm : ∀ (m : Nat) (h : m < done.length), s.lfm m = word g rank done[m]
  nl : s.nonloc = nonlocs g rank 0 done

theorem mark_next (g : Geo) (rank ntot : Nat) (s : St) (done : List Mv) (hI : Inv g rank s done) (mv : Mv)
    (hf : s.lfm s.curMov = flags mv) (hn : s.curMov < ntot) (p : Coords) :
    ∃ s', switchToNextStep ntot { markLink g rank mv.x mv.mu s with pos := p } = some s' ∧ Inv g rank s' (done ++ [mv]) ∧
      s'.lfm s'.curMov = 0 ∧ s'.pos = p ∧ s'.curPath = s.curPath := by
  obtain ⟨curPath, curMov, pos, lfm, nonloc⟩ := s
  obtain ⟨h1, h2, h3⟩ := hI
  simp only at h1 h2 h3 hf hn
  subst h1
  subst h3
  unfold switchToNextStep markLink
  simp only
  by_cases hl : (getLoclxAndRankOfCoords g mv.x).1 = rank
  · rw [if_pos hl]
    simp only
    rw [if_neg (by omega)]
    refine ⟨_, rfl, ⟨by simp, ?_, ?_⟩, by simp, rfl, rfl⟩
    · intro m hm
      simp only
      rw [List.length_append, List.length_singleton] at hm
      rw [Function.update_of_ne (by omega)]
      by_cases hmm : m = done.length
      · subst hmm
        rw [Function.update_self, hf]
        simp [word, isLoc, hl]
      · rw [Function.update_of_ne hmm, List.getElem_append_left (by omega)]
        exact h2 m (by omega)
    · simp [nonlocs_append, nonlocs, isLoc, hl]
  · rw [if_neg hl]
    simp only
    rw [if_neg (by omega)]
    refine ⟨_, rfl, ⟨by simp, ?_, ?_⟩, by simp, rfl, rfl⟩
    · intro m hm
      simp only
      rw [List.length_append, List.length_singleton] at hm
      rw [Function.update_of_ne (by omega)]
      by_cases hmm : m = done.length
      · subst hmm
        rw [hf]
        simp [word, isLoc, hl]
      · rw [List.getElem_append_left (by omega)]
        exact h2 m (by omega)
    · simp [nonlocs_append, nonlocs, isLoc, hl]

theorem moves_spec (g : Geo) (rank ntot : Nat) (l : List Move) : ∀ (s : St) (done : List Mv) (f sm : Bool), Inv g rank s done →
    s.lfm s.curMov = (if f then 1 else 0) + (if sm then 8 else 0) → s.curMov + l.length ≤ ntot → ∃ s', l.foldl (doMove g rank ntot) (some s) = some s' ∧
      Inv g rank s' (done ++ movesOf g f sm s.pos l) ∧ s'.curPath = s.curPath := by
  induction l with
  | nil => intro s done f sm hI hf hn; exact ⟨s, rfl, by simpa [movesOf] using hI, rfl⟩
  | cons m l ih =>
    intro s done f sm hI hf hn
    obtain ⟨mu, d⟩ := m
    simp only [List.length_cons] at hn
    cases d
    · have hI' : Inv g rank { s with lfm := Function.update s.lfm s.curMov (s.lfm s.curMov + 2) } done := by
        refine ⟨hI.mov, fun m hm => ?_, hI.nl⟩
        simp only
        rw [Function.update_of_ne (by have := hI.mov; omega)]
        exact hI.lfm m hm
      obtain ⟨s', h1, h2, h3, h4, h5⟩ := mark_next g rank ntot _ done hI' ⟨f, sm, true, tshift g s.pos mu (-1), mu⟩ (by
        simp only [Function.update_self, hf, flags, if_true]; omega) (by simp only; omega) (tshift g s.pos mu (-1))
      have e : doMove g rank ntot (some s) (mu, false) = some s' := by
        simp only [doMove, Option.bind_some, Bool.false_eq_true, if_false, moveBackward]
        rw [if_neg (by omega)]
        exact h1
      simp only [List.foldl_cons, e]
      obtain ⟨s'', k1, k2, k3⟩ := ih s' _ false false h2 (by simpa using h3) (by rw [h2.mov]; have := hI.mov; simp; omega)
      refine ⟨s'', k1, ?_, by rw [k3, h5]⟩
      rw [h4] at k2
      simpa [movesOf] using k2
    · obtain ⟨s', h1, h2, h3, h4, h5⟩ := mark_next g rank ntot s done hI ⟨f, sm, false, s.pos, mu⟩ (by
        simp only [hf, flags, Bool.false_eq_true, if_false]; omega) (by omega) (tshift g s.pos mu 1)
      have e : doMove g rank ntot (some s) (mu, true) = some s' := by
        simp only [doMove, Option.bind_some, if_true, moveForward]
        rw [if_neg (by omega)]
        exact h1
      simp only [List.foldl_cons, e]
      obtain ⟨s'', k1, k2, k3⟩ := ih s' _ false false h2 (by simpa using h3) (by rw [h2.mov]; have := hI.mov; simp; omega)
      refine ⟨s'', k1, ?_, by rw [k3, h5]⟩
      rw [h4] at k2
      simpa [movesOf] using k2

/-- global coordinates of the local site `lx` -/
def siteOf (g : Geo) (rank lx : Nat) : Coords := (glbCoordOfLoclx g (coordOfLx rank g.R) lx).getD (fun _ => 0)

theorem siteOf_eq {g : Geo} (ok : g.Ok) (rank : Nat) {lx : Nat} (h : lx < g.locVol) :
    glbCoordOfLoclx g (coordOfLx rank g.R) lx = some (siteOf g rank lx) := by
  obtain ⟨c, hc⟩ := glbCoord_some ok (coordOfLx rank g.R) (i := lx) (by unfold allVol; omega)
  unfold siteOf
  rw [hc]; rfl

theorem path_spec {g : Geo} (ok : g.Ok) (rank npaths ntot : Nat) (sm : Bool) (p : Nat × List Move) (hp : p.1 < g.locVol) (s : St) (done : List Mv)
    (hI : Inv g rank s done) (hm : s.curMov + p.2.length ≤ ntot) (h0 : sm = true → s.curPath ≠ 0)
    (hn : s.curPath + (if sm then 0 else 1) ≤ npaths) :
    ∃ s', doPath g rank npaths ntot sm (some s) p = some s' ∧ Inv g rank s' (done ++ movesOf g true sm (siteOf g rank p.1) p.2) ∧
      s'.curPath = s.curPath + (if sm then 0 else 1) := by
  unfold doPath
  rw [Option.bind_some, start, siteOf_eq ok rank hp, Option.map_some, Option.bind_some]
  have hI' : ∀ w, Inv g rank { s with pos := siteOf g rank p.1, lfm := Function.update s.lfm s.curMov w } done := by
    intro w
    refine ⟨hI.mov, fun m hm => ?_, hI.nl⟩
    simp only
    rw [Function.update_of_ne (by have := hI.mov; omega)]
    exact hI.lfm m hm
  cases sm
  · simp only [Bool.false_eq_true, if_false]
    obtain ⟨s', h1, h2, h3⟩ := moves_spec g rank ntot p.2 _ done true false (hI' 1) (by simp) hm
    rw [h1, Option.bind_some]
    simp only at h3
    simp only [Bool.false_eq_true, if_false] at hn
    unfold stopCurrentPath
    rw [if_neg (by omega)]
    exact ⟨_, rfl, ⟨h2.mov, h2.lfm, h2.nl⟩, by simp [h3]⟩
  · simp only [if_true]
    have h0' := h0 rfl
    unfold summToPrevious
    simp only
    rw [if_neg h0', Function.update_self, Function.update_idem]
    simp only [show 1 / 8 % 2 = 0 from rfl, if_true]
    have hI2 : Inv g rank { curPath := s.curPath - 1, curMov := s.curMov, pos := siteOf g rank p.1, lfm := Function.update s.lfm s.curMov (1 + 8), nonloc := s.nonloc } done :=
      ⟨(hI' 9).mov, (hI' 9).lfm, (hI' 9).nl⟩
    obtain ⟨s', h1, h2, h3⟩ := moves_spec g rank ntot p.2 _ done true true hI2 (by simp) hm
    rw [h1, Option.bind_some]
    simp only at h3
    simp only [if_true] at hn
    unfold stopCurrentPath
    rw [if_neg (by omega)]
    refine ⟨_, rfl, ⟨h2.mov, h2.lfm, h2.nl⟩, ?_⟩
    simp only [h3]; omega

/-- all the movements of a group of paths -/
def groupMoves (g : Geo) (rank : Nat) : List (Nat × List Move) → List Mv
  | [] => []
  | p :: ps => movesOf g true false (siteOf g rank p.1) p.2 ++ ps.flatMap (fun p => movesOf g true true (siteOf g rank p.1) p.2)

def allMoves (g : Geo) (rank : Nat) (groups : List (List (Nat × List Move))) : List Mv := groups.flatMap (groupMoves g rank)

theorem group_tail_spec {g : Geo} (ok : g.Ok) (rank npaths ntot : Nat) (ps : List (Nat × List Move)) (hp : ∀ p ∈ ps, p.1 < g.locVol) :
    ∀ (s : St) (done : List Mv), Inv g rank s done → s.curMov + (ps.map (·.2.length)).sum ≤ ntot → s.curPath ≠ 0 → s.curPath ≤ npaths →
    ∃ s', ps.foldl (doPath g rank npaths ntot true) (some s) = some s' ∧
      Inv g rank s' (done ++ ps.flatMap (fun p => movesOf g true true (siteOf g rank p.1) p.2)) ∧ s'.curPath = s.curPath := by
  induction ps with
  | nil => intro s done hI hm h0 hn; exact ⟨s, rfl, by simpa using hI, rfl⟩
  | cons p ps ih =>
    intro s done hI hm h0 hn
    simp only [List.map_cons, List.sum_cons] at hm
    obtain ⟨s', h1, h2, h3⟩ := path_spec ok rank npaths ntot true p (hp p (by simp)) s done hI (by omega) (fun _ => h0) (by simpa using hn)
    simp only [if_true, Nat.add_zero] at h3
    obtain ⟨s'', k1, k2, k3⟩ := ih (fun q hq => hp q (by simp [hq])) s' _ h2 (by
      rw [h2.mov, List.length_append, movesOf_length]; have := hI.mov; omega) (by omega) (by omega)
    refine ⟨s'', by rw [List.foldl_cons, h1, k1], ?_, by omega⟩
    simpa using k2

theorem groups_spec {g : Geo} (ok : g.Ok) (rank npaths ntot : Nat) (gs : List (List (Nat × List Move)))
    (hne : ∀ G ∈ gs, G ≠ []) (hp : ∀ G ∈ gs, ∀ p ∈ G, p.1 < g.locVol) :
    ∀ (s : St) (done : List Mv), Inv g rank s done → s.curMov + (gs.map (fun G => (G.map (·.2.length)).sum)).sum ≤ ntot →
      s.curPath + gs.length ≤ npaths →
    ∃ s', gs.foldl (doGroup g rank npaths ntot) (some s) = some s' ∧
      Inv g rank s' (done ++ allMoves g rank gs) ∧ s'.curPath = s.curPath + gs.length := by
  induction gs with
  | nil => intro s done hI hm hn; exact ⟨s, rfl, by simpa [allMoves] using hI, rfl⟩
  | cons G gs ih =>
    intro s done hI hm hn
    cases G with
    | nil => exact absurd rfl (hne [] (by simp))
    | cons p ps =>
      simp only [List.map_cons, List.sum_cons, List.length_cons] at hm hn
      obtain ⟨s1, h1, h2, h3⟩ := path_spec ok rank npaths ntot false p (hp _ List.mem_cons_self p (by simp)) s done hI (by omega) (by simp) (by simp; omega)
      simp only [Bool.false_eq_true, if_false] at h3
      obtain ⟨s2, k1, k2, k3⟩ := group_tail_spec ok rank npaths ntot ps (fun q hq => hp _ (List.mem_cons_self) q (by simp [hq])) s1 _ h2 (by
        rw [h2.mov, List.length_append, movesOf_length]; have := hI.mov; omega) (by omega) (by omega)
      have hlen : ∀ ps : List (Nat × List Move), (ps.flatMap (fun p => movesOf g true true (siteOf g rank p.1) p.2)).length = (ps.map (·.2.length)).sum := by
        intro ps
        induction ps with
        | nil => rfl
        | cons q ps ih => simp [movesOf_length]
      obtain ⟨s3, q1, q2, q3⟩ := ih (fun G hG => hne G (by simp [hG])) (fun G hG => hp G (by simp [hG])) s2 _ k2 (by
        rw [k2.mov, List.length_append, List.length_append, movesOf_length, hlen]; have := hI.mov; omega) (by omega)
      refine ⟨s3, ?_, ?_, by rw [q3, k3, h3, List.length_cons]; omega⟩
      · rw [List.foldl_cons]
        simp only [doGroup]
        rw [h1, k1, q1]
      · simpa [allMoves, groupMoves] using q2

/-! ### Numbering and gathering of the non local links -/

theorem indList_pos : ∀ (l : List NL) (n : Nat) (lfm : Nat → Nat), (l.map (·.mov)).Nodup →
    (∀ a ∈ l, ∃ k, assign l n lfm a.mov = lfm a.mov + ((n + k) * 16 + 4) ∧ (indList l)[k]? = some a.linkId) ∧
    (∀ m, (∀ a ∈ l, a.mov ≠ m) → assign l n lfm m = lfm m) := by
  intro l
  induction l with
  | nil => intro n lfm _; simp [assign]
  | cons a l ih =>
    intro n lfm hnd
    cases l with
    | nil =>
      refine ⟨fun b hb => ?_, fun m hm => ?_⟩
      · rw [List.mem_singleton] at hb; subst hb
        exact ⟨0, by simp [assign], by simp [indList]⟩
      · have := hm a (by simp)
        simp [assign, Function.update_of_ne this.symm]
    | cons b l =>
      have hnd' : ((b :: l).map (·.mov)).Nodup := (List.nodup_cons.1 hnd).2
      have ha : ∀ c ∈ b :: l, c.mov ≠ a.mov := by
        intro c hc he
        exact (List.nodup_cons.1 hnd).1 (List.mem_map.2 ⟨c, hc, he⟩)
      have := ih (if a.linkId ≠ b.linkId then n + 1 else n) (Function.update lfm a.mov (lfm a.mov + (n * 16 + 4))) hnd'
      obtain ⟨h1, h2⟩ := this
      refine ⟨fun c hc => ?_, fun m hm => ?_⟩
      · rcases List.mem_cons.1 hc with rfl | hc
        · simp only [assign]
          rw [h2 c.mov ha, Function.update_self]
          refine ⟨0, by ring, ?_⟩
          simp only [indList]
          by_cases hl : c.linkId ≠ b.linkId
          · rw [if_pos hl]; rfl
          · rw [if_neg hl]
            have hl' : c.linkId = b.linkId := not_not.1 hl
            rw [hl']
            cases l with
            | nil => rfl
            | cons d l =>
              have : ∀ (l : List NL) (b : NL), (indList (b :: l))[0]? = some b.linkId := by
                intro l
                induction l with
                | nil => intro b; rfl
                | cons d l ih =>
                  intro b
                  simp only [indList]
                  by_cases hbd : b.linkId ≠ d.linkId
                  · rw [if_pos hbd]; rfl
                  · rw [if_neg hbd, not_not.1 hbd]; exact ih d
              exact this _ b
        · obtain ⟨k, hk1, hk2⟩ := h1 c hc
          simp only [assign]
          rw [hk1, Function.update_of_ne (ha c hc)]
          by_cases hl : a.linkId ≠ b.linkId
          · rw [if_pos hl]
            refine ⟨k + 1, by ring, ?_⟩
            simp only [indList]; rw [if_pos hl, List.getElem?_cons_succ]; exact hk2
          · rw [if_neg hl]
            refine ⟨k, rfl, ?_⟩
            simp only [indList]; rw [if_neg hl]; exact hk2
      · simp only [assign]
        rw [h2 m (fun c hc => hm c (by simp [List.mem_cons] at hc ⊢; tauto)), Function.update_of_ne (hm a (by simp)).symm]

/-- selecting by increasing key a list sorted by key gives back the list -/
theorem flatMap_sorted {A : Type} (key : A → Nat) : ∀ (n a : Nat) (l : List A), l.Pairwise (fun x y => key x ≤ key y) → (∀ x ∈ l, a ≤ key x ∧ key x < a + n) →
    (List.range' a n).flatMap (fun d => l.filter (fun x => key x = d)) = l := by
  intro n
  induction n with
  | zero =>
    intro a l _ h
    cases l with
    | nil => rfl
    | cons x l => have := h x (by simp); omega
  | succ n ih =>
    intro a l hs h
    rw [List.range'_succ, List.flatMap_cons]
    -- split the list
    have key1 : l.filter (fun x => key x = a) ++ l.filter (fun x => key x ≠ a) = l := by
      clear ih
      induction l with
      | nil => rfl
      | cons x l ih2 =>
        rw [List.pairwise_cons] at hs
        by_cases hx : key x = a
        · simp only [List.filter_cons, hx, decide_true, if_true, ne_eq, not_true, decide_false, Bool.false_eq_true, if_false, List.cons_append]
          rw [ih2 hs.2 (fun y hy => h y (by simp [hy]))]
        · have : l.filter (fun x => key x = a) = [] := by
            rw [List.filter_eq_nil_iff]
            intro y hy
            have h1 := hs.1 y hy
            have h2 := h x (by simp)
            simp; omega
          have h3 : l.filter (fun x => key x ≠ a) = l := by
            rw [List.filter_eq_self]
            intro y hy
            have h1 := hs.1 y hy
            have h2 := h x (by simp)
            simp; omega
          simp only [List.filter_cons, hx, decide_false, Bool.false_eq_true, if_false, ne_eq, not_false_eq_true, decide_true, if_true]
          rw [this, List.nil_append]
          simp only [ne_eq] at h3
          rw [h3]
    have := ih (a + 1) (l.filter (fun x => key x ≠ a)) (hs.filter _) (fun x hx => by
      rw [List.mem_filter] at hx
      have h1 := h x hx.1
      have h2 : key x ≠ a := by simpa using hx.2
      omega)
    conv_rhs => rw [← key1, ← this]
    congr 1
    refine List.flatMap_congr fun d hd => ?_
    rw [List.mem_range'] at hd
    obtain ⟨i, hi, rfl⟩ := hd
    rw [List.filter_filter]
    refine List.filter_congr fun x _ => ?_
    by_cases hx : key x = a + 1 + 1 * i
    · simp [hx]; omega
    · simp [hx]; omega

/-- site and direction of a link id -/
def linkSite (g : Geo) (t : Nat) : Coords := coordOfLx (t / 4) g.L

theorem linkId_site {g : Geo} {x : Coords} (hx : x ∈ box g.L) (mu : Dir) :
    linkSite g (lxOfCoord x g.L * 4 + mu) = x ∧ Fin.ofNat 4 (lxOfCoord x g.L * 4 + mu) = mu ∧ (lxOfCoord x g.L * 4 + mu) % 4 = mu := by
  have := mu.isLt
  refine ⟨?_, ?_, by omega⟩
  · unfold linkSite
    rw [show (lxOfCoord x g.L * 4 + mu.val) / 4 = lxOfCoord x g.L by omega]
    exact coordOfLx_lxOfCoord (mem_box.1 hx)
  · apply Fin.ext; simp [Fin.ofNat]

/-- delta of a rank -/
theorem delta_rank {n rank rx d : Nat} (h1 : rank < n) (h2 : rx < n) (h3 : d < n) : (rank + n - rx) % n = d ↔ (rank + n - d) % n = rx := by
  have key : ∀ a b, a < n → b < n → (a + n - b) % n = if b ≤ a then a - b else a + n - b := by
    intro a b ha hb
    split
    · rw [show a + n - b = (a - b) + n by omega, Nat.add_mod_right, Nat.mod_eq_of_lt (by omega)]
    · rw [Nat.mod_eq_of_lt (by omega)]
  rw [key _ _ h1 h2, key _ _ h1 h3]
  split <;> split <;> omega

theorem indList_mem (l : List NL) : ∀ t ∈ indList l, ∃ a ∈ l, a.linkId = t := by
  induction l with
  | nil => simp [indList]
  | cons a l ih =>
    cases l with
    | nil => intro t ht; simp [indList] at ht; exact ⟨a, by simp, ht.symm⟩
    | cons b l =>
      intro t ht
      simp only [indList] at ht
      by_cases hl : a.linkId ≠ b.linkId
      · rw [if_pos hl] at ht
        rcases List.mem_cons.1 ht with rfl | ht
        · exact ⟨a, by simp, rfl⟩
        · obtain ⟨c, hc, he⟩ := ih t ht; exact ⟨c, by simp [List.mem_cons] at hc ⊢; tauto, he⟩
      · rw [if_neg hl] at ht
        obtain ⟨c, hc, he⟩ := ih t ht; exact ⟨c, by simp [List.mem_cons] at hc ⊢; tauto, he⟩

theorem indList_sorted (key : Nat → Nat) (l : List NL) (h : l.Pairwise (fun a b => key a.linkId ≤ key b.linkId)) :
    (indList l).Pairwise (fun a b => key a ≤ key b) := by
  induction l with
  | nil => simp [indList]
  | cons a l ih =>
    rw [List.pairwise_cons] at h
    cases l with
    | nil => simp [indList]
    | cons b l =>
      simp only [indList]
      by_cases hl : a.linkId ≠ b.linkId
      · rw [if_pos hl, List.pairwise_cons]
        refine ⟨fun t ht => ?_, ih h.2⟩
        obtain ⟨c, hc, rfl⟩ := indList_mem _ t ht
        exact h.1 c hc
      · rw [if_neg hl]; exact ih h.2

/-- the buffer of the non local links holds the links of the global configuration, in the order of the independent links -/
theorem gather_spec {g : Geo} (ok : g.Ok) (F : Nat → Nat → Quad) {rank : Nat} (hr : rank < g.nranks) (l : List NL)
    (hl : ∀ a ∈ l, ∃ m, ∃ x ∈ box g.L, ∃ mu, a = NL.set g rank m x mu ∧ (getLoclxAndRankOfCoords g x).1 ≠ rank)
    (hs : l.Pairwise (fun a b => a.ord ≤ b.ord)) :
    gatherNonloc g F rank (indList l) = (indList l).map (fun t => glob g F (linkSite g t) (Fin.ofNat 4 t)) := by
  set key : Nat → Nat := fun t => (rank + g.nranks - (getLoclxAndRankOfCoords g (linkSite g t)).1) % g.nranks with hkey
  have hk : ∀ a ∈ l, ∀ b ∈ l, a.ord ≤ b.ord → key a.linkId ≤ key b.linkId := by
    intro a ha b hb hab
    obtain ⟨m, x, hx, mu, rfl, hx2⟩ := hl a ha
    obtain ⟨m', x', hx', mu', rfl, hx2'⟩ := hl b hb
    simp only [NL.set, hkey] at hab ⊢
    rw [(linkId_site hx mu).1, (linkId_site hx' mu').1]
    have q1 := (C02_rank_and_loclx g ok x (mem_box.1 hx)).2.1
    have q2 := (C02_rank_and_loclx g ok x' (mem_box.1 hx')).2.1
    have m1 := mu.isLt
    have m2 := mu'.isLt
    generalize (rank + g.nranks - (getLoclxAndRankOfCoords g x).1) % g.nranks = A at *
    generalize (rank + g.nranks - (getLoclxAndRankOfCoords g x').1) % g.nranks = B at *
    by_contra hc
    have : B + 1 ≤ A := by omega
    have := Nat.mul_le_mul_right g.locVol this
    rw [Nat.add_mul] at this
    omega
  have hs2 : (indList l).Pairwise (fun a b => key a ≤ key b) := by
    refine indList_sorted key l (hs.imp_of_mem ?_)
    intro a b ha hb hab
    exact hk a ha b hb hab
  have hrange : ∀ t ∈ indList l, ∃ x ∈ box g.L, linkSite g t = x ∧ (getLoclxAndRankOfCoords g x).1 ≠ rank ∧ (getLoclxAndRankOfCoords g x).1 < g.nranks := by
    intro t ht
    obtain ⟨a, ha, rfl⟩ := indList_mem l t ht
    obtain ⟨m, x, hx, mu, rfl, hx2⟩ := hl a ha
    exact ⟨x, hx, (linkId_site hx mu).1, hx2, (C02_rank_and_loclx g ok x (mem_box.1 hx)).1⟩
  have hb : ∀ t ∈ indList l, 1 ≤ key t ∧ key t < 1 + (g.nranks - 1) := by
    intro t ht
    obtain ⟨x, hx, h1, h2, h3⟩ := hrange t ht
    simp only [hkey]
    rw [h1]
    have h4 := Nat.mod_lt (rank + g.nranks - (getLoclxAndRankOfCoords g x).1) (show 0 < g.nranks by omega)
    refine ⟨?_, by omega⟩
    rcases Nat.eq_zero_or_pos ((rank + g.nranks - (getLoclxAndRankOfCoords g x).1) % g.nranks) with h | h
    · exfalso
      have := (delta_rank hr h3 (d := 0) (by omega)).1 h
      rw [Nat.sub_zero, Nat.add_mod_right, Nat.mod_eq_of_lt hr] at this
      exact h2 this.symm
    · exact h
  have main := flatMap_sorted key (g.nranks - 1) 1 (indList l) hs2 hb
  unfold gatherNonloc
  conv_rhs => rw [← main, List.map_flatMap]
  have ht : (List.range g.nranks).tail = List.range' 1 (g.nranks - 1) := by
    have : g.nranks = (g.nranks - 1) + 1 := by omega
    rw [List.range_eq_range', this, List.range'_succ]; rfl
  rw [ht]
  refine List.flatMap_congr fun d hd => ?_
  rw [List.mem_range'] at hd
  obtain ⟨i, hi, rfl⟩ := hd
  unfold linksToAsk
  simp only [List.map_map]
  have hf : (indList l).filter (fun t => (getLoclxAndRankOfCoords g (coordOfLx (t / 4) g.L)).1 = (rank + g.nranks - (1 + 1 * i)) % g.nranks) =
      (indList l).filter (fun t => key t = 1 + 1 * i) := by
    refine List.filter_congr fun t ht => ?_
    obtain ⟨x, hx, h1, h2, h3⟩ := hrange t ht
    simp only [hkey, decide_eq_decide]
    rw [show coordOfLx (t / 4) g.L = x from h1, h1]
    rw [delta_rank hr h3 (by omega)]
    exact eq_comm
  rw [hf]
  refine List.map_congr_left fun t ht => ?_
  rw [List.mem_filter] at ht
  obtain ⟨x, hx, h1, h2, h3⟩ := hrange t ht.1
  have h4 : key t = 1 + 1 * i := by simpa using ht.2
  simp only [hkey] at h4
  rw [h1] at h4
  have h5 := (delta_rank hr h3 (by omega)).1 h4
  simp only [Function.comp]
  rw [show coordOfLx (t / 4) g.L = x from h1, h1, h5]
  unfold glob
  have m1 := Nat.mod_lt t (show 0 < 4 by omega)
  rw [show ((getLoclxAndRankOfCoords g x).2 * 4 + t % 4) / 4 = (getLoclxAndRankOfCoords g x).2 by omega]
  congr 1
  apply Fin.ext
  simp [Fin.ofNat]

/-! ### Computing -/

/-- one iteration on the description of the movement -/
def mvStep (U : Coords → Quad) (s : CSt) (i : Nat) (m : Mv) : CSt :=
  let s1 : CSt :=
    if m.first then
      if i ≠ 0 then
        let paths := Function.update s.paths s.ipath (s.paths s.ipath + s.cur)
        if ¬ m.summ then { ipath := s.ipath + 1, cur := 1, paths := Function.update paths (s.ipath + 1) 0 }
        else { s with cur := 1, paths := paths }
      else { s with cur := 1, paths := Function.update s.paths s.ipath 0 }
    else s
  { s1 with cur := if m.dag then s1.cur * (U m.x m.mu)ᴴ else s1.cur * U m.x m.mu }

def mvSteps (U : Coords → Quad) : CSt → Nat → List Mv → CSt
  | s, _, [] => s
  | s, i, m :: l => mvSteps U (mvStep U s i m) (i + 1) l

theorem mvSteps_append (U : Coords → Quad) (a b : List Mv) : ∀ s i, mvSteps U s i (a ++ b) = mvSteps U (mvSteps U s i a) (i + a.length) b := by
  induction a with
  | nil => intro s i; rfl
  | cons m a ih => intro s i; simp only [List.cons_append, mvSteps, ih, List.length_cons]; congr 1; omega

/-- the word of a movement is decoded as its description -/
def Decodes (link : Bool → Nat → M3) (U : Coords → Quad) (w : Nat) (m : Mv) : Prop :=
  (w % 16 % 2 = 1 ↔ m.first = true) ∧ (w % 16 / 2 % 2 = 1 ↔ m.dag = true) ∧ (w % 16 / 8 % 2 = 1 ↔ m.summ = true) ∧
  link (decide (w % 16 / 4 % 2 = 1)) (w / 16) = U m.x m.mu

theorem computeStep_eq (lfm : Nat → Nat) (link : Bool → Nat → M3) (U : Coords → Quad) (s : CSt) (i : Nat) (m : Mv) (h : Decodes link U (lfm i) m) :
    computeStep lfm link s i = mvStep U s i m := by
  obtain ⟨h1, h2, h3, h4⟩ := h
  unfold computeStep mvStep
  simp only [h1, h2, h3, h4]

theorem compute_fold (lfm : Nat → Nat) (link : Bool → Nat → M3) (U : Coords → Quad) (l : List Mv) :
    ∀ i s, (∀ (k : Nat) (h : k < l.length), Decodes link U (lfm (i + k)) l[k]) →
      (List.range' i l.length).foldl (computeStep lfm link) s = mvSteps U s i l := by
  induction l with
  | nil => intro i s _; rfl
  | cons m l ih =>
    intro i s h
    rw [List.length_cons, List.range'_succ, List.foldl_cons, computeStep_eq lfm link U s i m (h 0 (by simp))]
    exact ih (i + 1) _ (fun k hk => by
      have := h (k + 1) (by simpa using hk)
      rw [show i + 1 + k = i + (k + 1) by omega]
      exact this)

theorem mvSteps_rest (g : Geo) (U : Coords → Quad) (l : List Move) : ∀ (s : CSt) (i : Nat) (x : Coords),
    mvSteps U s i (movesOf g false false x l) = { s with cur := s.cur * pathProd g U x l } := by
  induction l with
  | nil => intro s i x; simp [movesOf, mvSteps, pathProd]
  | cons m l ih =>
    intro s i x
    obtain ⟨mu, d⟩ := m
    cases d <;>
    · simp only [movesOf, mvSteps, pathProd, ih, mvStep]
      simp [Matrix.mul_assoc]

theorem mvSteps_path (g : Geo) (U : Coords → Quad) (sm : Bool) (x : Coords) (l : List Move) (hl : l ≠ []) (s : CSt) (i : Nat) :
    mvSteps U s i (movesOf g true sm x l) =
      if i ≠ 0 then
        if ¬ sm then ⟨s.ipath + 1, pathProd g U x l, Function.update (Function.update s.paths s.ipath (s.paths s.ipath + s.cur)) (s.ipath + 1) 0⟩
        else ⟨s.ipath, pathProd g U x l, Function.update s.paths s.ipath (s.paths s.ipath + s.cur)⟩
      else ⟨s.ipath, pathProd g U x l, Function.update s.paths s.ipath 0⟩ := by
  cases l with
  | nil => exact absurd rfl hl
  | cons m l =>
    obtain ⟨mu, d⟩ := m
    cases d <;>
    · simp only [movesOf, mvSteps, pathProd, mvSteps_rest, mvStep]
      by_cases hi : i = 0
      · simp [hi]
      · cases sm <;> simp [hi]

/-- Specification: sum of the products along the paths of a group -/
def groupSum (g : Geo) (U : Coords → Quad) (rank : Nat) (ps : List (Nat × List Move)) : M3 :=
  (ps.map (fun p => pathProd g U (siteOf g rank p.1) p.2)).sum

theorem mvSteps_tail (g : Geo) (U : Coords → Quad) (rank : Nat) (ps : List (Nat × List Move)) (hne : ∀ p ∈ ps, p.2 ≠ []) :
    ∀ (s : CSt) (i : Nat), i ≠ 0 → ∃ s', mvSteps U s i (ps.flatMap (fun p => movesOf g true true (siteOf g rank p.1) p.2)) = s' ∧
      s'.ipath = s.ipath ∧ s'.paths s.ipath + s'.cur = s.paths s.ipath + s.cur + groupSum g U rank ps ∧
      ∀ k, k ≠ s.ipath → s'.paths k = s.paths k := by
  induction ps with
  | nil => intro s i hi; exact ⟨s, rfl, rfl, by simp [groupSum], fun _ _ => rfl⟩
  | cons p ps ih =>
    intro s i hi
    rw [List.flatMap_cons, mvSteps_append, mvSteps_path g U true _ _ (hne p (by simp)), if_pos hi, if_neg (by simp)]
    obtain ⟨s', h1, h2, h3, h4⟩ := ih (fun q hq => hne q (by simp [hq]))
      ⟨s.ipath, pathProd g U (siteOf g rank p.1) p.2, Function.update s.paths s.ipath (s.paths s.ipath + s.cur)⟩
      (i + (movesOf g true true (siteOf g rank p.1) p.2).length) (by omega)
    refine ⟨s', h1, h2, ?_, fun k hk => ?_⟩
    · simp only [Function.update_self] at h3
      rw [h3]
      simp [groupSum, add_assoc]
    · rw [h4 k hk]
      exact Function.update_of_ne hk _ _

theorem mvSteps_groups (g : Geo) (U : Coords → Quad) (rank : Nat) (gs : List (List (Nat × List Move))) (h1 : ∀ G ∈ gs, G ≠ [])
    (h2 : ∀ G ∈ gs, ∀ p ∈ G, p.2 ≠ []) : ∀ (s : CSt) (i : Nat), i ≠ 0 → ∃ s', mvSteps U s i (allMoves g rank gs) = s' ∧
      s'.ipath = s.ipath + gs.length ∧
      (∀ k, k ≤ s.ipath + gs.length → (if k = s.ipath + gs.length then s'.paths k + s'.cur else s'.paths k) =
        if k < s.ipath then s.paths k else if k = s.ipath then s.paths k + s.cur else groupSum g U rank (gs.getD (k - s.ipath - 1) [])) := by
  induction gs with
  | nil =>
    intro s i hi
    refine ⟨s, rfl, rfl, fun k hk => ?_⟩
    simp only [List.length_nil, Nat.add_zero] at hk ⊢
    by_cases hk2 : k = s.ipath
    · simp [hk2]
    · rw [if_neg hk2, if_pos (by omega)]
  | cons G gs ih =>
    intro s i hi
    cases G with
    | nil => exact absurd rfl (h1 [] (by simp))
    | cons p ps =>
      have hp := h2 _ List.mem_cons_self p (by simp)
      unfold allMoves
      rw [List.flatMap_cons, groupMoves, List.append_assoc, mvSteps_append, mvSteps_path g U false _ _ hp, if_pos hi, if_pos (by simp), mvSteps_append]
      set s0 : CSt := ⟨s.ipath + 1, pathProd g U (siteOf g rank p.1) p.2,
        Function.update (Function.update s.paths s.ipath (s.paths s.ipath + s.cur)) (s.ipath + 1) 0⟩ with hs0
      obtain ⟨s1, q1, q2, q3, q4⟩ := mvSteps_tail g U rank ps (fun q hq => h2 _ List.mem_cons_self q (by simp [hq])) s0
        (i + (movesOf g true false (siteOf g rank p.1) p.2).length) (by omega)
      rw [q1]
      obtain ⟨s2, r1, r2, r3⟩ := ih (fun G hG => h1 G (by simp [hG])) (fun G hG => h2 G (by simp [hG])) s1
        (i + (movesOf g true false (siteOf g rank p.1) p.2).length +
          (ps.flatMap (fun p => movesOf g true true (siteOf g rank p.1) p.2)).length) (by omega)
      refine ⟨s2, r1, ?_, fun k hk => ?_⟩
      · rw [r2, q2, hs0, List.length_cons]; simp only; omega
      · have e1 : s1.ipath = s.ipath + 1 := q2
        have hk' : k ≤ s1.ipath + gs.length := by rw [List.length_cons] at hk; omega
        have := r3 k hk'
        rw [List.length_cons, show s.ipath + (gs.length + 1) = s1.ipath + gs.length by omega, this, e1]
        by_cases c1 : k < s.ipath
        · rw [if_pos (by omega), if_pos c1, q4 k (by simp [hs0]; omega), hs0]
          simp only
          rw [Function.update_of_ne (by omega), Function.update_of_ne (by omega)]
        by_cases c2 : k = s.ipath
        · rw [if_pos (by omega), if_neg c1, if_pos c2, q4 k (by simp [hs0]; omega), hs0]
          simp only
          rw [Function.update_of_ne (by omega), c2, Function.update_self]
        rw [if_neg c1, if_neg c2, if_neg (by omega)]
        by_cases c3 : k = s.ipath + 1
        · rw [if_pos c3, c3]
          have : s0.ipath = s.ipath + 1 := rfl
          rw [this] at q3
          rw [q3, hs0]
          simp [groupSum]
        · rw [if_neg c3]
          rw [show k - s.ipath - 1 = (k - (s.ipath + 1) - 1) + 1 by omega]
          simp

/-- C32: the structure computing products of links along any set of paths. Describe any groups of non empty paths starting from local
sites, on every rank independently; declare as many movements as the total length of the paths and as many outputs as groups.
Then no check fails, and after `compute_lx` each output holds the sum of the ordered products of the links of the global configuration
along the paths of its group, whichever ranks the paths cross, whatever order `qsort` leaves equal links in and whatever the
memory contained. -/
theorem C32_paths (g : Geo) (ok : g.Ok) (F : Nat → Nat → Quad) (rank : Nat) (hr : rank < g.nranks) (groups : List (List (Nat × List Move)))
    (h0 : groups ≠ []) (h1 : ∀ G ∈ groups, G ≠ []) (h2 : ∀ G ∈ groups, ∀ p ∈ G, p.2 ≠ [] ∧ p.1 < g.locVol)
    (lfm0 : Nat → Nat) (jl : M3) (paths0 : Nat → M3) :
    let ntot := (groups.map (fun G => (G.map (·.2.length)).sum)).sum
    let npaths := groups.length
    ∃ s, describe g rank npaths ntot lfm0 groups = some s ∧
      ∀ sorted : List NL, sorted.Perm s.nonloc → sorted.Pairwise (fun a b => a.ord ≤ b.ord) →
        ∃ lfm ind out, finishedLastPath npaths ntot sorted s = some (lfm, ind) ∧
          computeLx g F rank npaths ntot lfm ind jl paths0 = some out ∧
          ∀ k, k < npaths → out k = groupSum g (glob g F) rank (groups.getD k []) := by
  intro ntot npaths
  obtain ⟨s, hs1, hs2, hs3⟩ := groups_spec ok rank npaths ntot groups h1 (fun G hG p hp => (h2 G hG p hp).2)
    ⟨0, 0, fun _ => 0, lfm0, []⟩ [] ⟨rfl, by simp, rfl⟩ (by simp [ntot]) (by simp [npaths])
  rw [List.nil_append] at hs2
  simp only [Nat.zero_add] at hs3
  refine ⟨s, hs1, fun sorted hperm hsort => ?_⟩
  have hlen : (allMoves g rank groups).length = ntot := by
    have hg : ∀ G : List (Nat × List Move), (groupMoves g rank G).length = (G.map (·.2.length)).sum := by
      intro G
      cases G with
      | nil => rfl
      | cons p ps =>
        simp only [groupMoves, List.length_append, movesOf_length, List.length_flatMap, List.map_cons, List.sum_cons]
    unfold allMoves
    rw [List.length_flatMap]
    simp only [hg, ntot]
  set l := allMoves g rank groups with hldef
  -- sites of the links
  have hbox : ∀ m ∈ l, m.x ∈ box g.L := by
    have hmv : ∀ (ms : List Move) f sm x, x ∈ box g.L → ∀ m ∈ movesOf g f sm x ms, m.x ∈ box g.L := by
      intro ms
      induction ms with
      | nil => intro f sm x _ m hm; simp [movesOf] at hm
      | cons a ms ih =>
        intro f sm x hx m hm
        obtain ⟨mu, d⟩ := a
        cases d
        · rcases List.mem_cons.1 hm with rfl | hm
          · exact tshift_mem_box ok hx mu (-1)
          · exact ih _ _ _ (tshift_mem_box ok hx mu (-1)) m hm
        · rcases List.mem_cons.1 hm with rfl | hm
          · exact hx
          · exact ih _ _ _ (tshift_mem_box ok hx mu 1) m hm
    have hst : ∀ lx, lx < g.locVol → siteOf g rank lx ∈ box g.L := fun lx hlx =>
      mem_box.2 (glbCoord_lt ok (coordOfLx rank g.R) (i := lx) (by unfold allVol; omega) (siteOf_eq ok rank hlx))
    intro m hm
    rw [hldef] at hm
    unfold allMoves at hm
    obtain ⟨G, hG, hm⟩ := List.mem_flatMap.1 hm
    cases G with
    | nil => exact absurd rfl (h1 [] hG)
    | cons p ps =>
      rcases List.mem_append.1 hm with hm | hm
      · exact hmv _ _ _ _ (hst _ (h2 _ hG p (by simp)).2) m hm
      · obtain ⟨q, hq, hm⟩ := List.mem_flatMap.1 hm
        exact hmv _ _ _ _ (hst _ (h2 _ hG q (by simp [hq])).2) m hm
  -- elements of the list of non local links
  have hnl : ∀ (l : List Mv) i a, a ∈ nonlocs g rank i l ↔ ∃ k, ∃ h : k < l.length, ¬ isLoc g rank l[k] ∧ a = NL.set g rank (i + k) l[k].x l[k].mu := by
    intro l
    induction l with
    | nil => intro i a; simp [nonlocs]
    | cons m l ih =>
      intro i a
      simp only [nonlocs, List.mem_append, ih]
      constructor
      · rintro (h | ⟨k, hk, h3, h4⟩)
        · by_cases hc : isLoc g rank m
          · rw [if_pos hc] at h; simp at h
          · rw [if_neg hc, List.mem_singleton] at h
            exact ⟨0, by simp, hc, h⟩
        · exact ⟨k + 1, by simpa using hk, h3, by rw [h4, show i + 1 + k = i + (k + 1) by omega]; rfl⟩
      · rintro ⟨k, hk, h3, h4⟩
        cases k with
        | zero => left; rw [if_neg (show ¬ isLoc g rank m from h3)]; simpa using h4
        | succ k =>
          right
          exact ⟨k, by simpa using hk, h3, by rw [h4, show i + 1 + k = i + (k + 1) by omega]; rfl⟩
  have hnd : ∀ (l : List Mv) i, ((nonlocs g rank i l).map (·.mov)).Nodup := by
    intro l
    induction l with
    | nil => intro i; simp [nonlocs]
    | cons m l ih =>
      intro i
      simp only [nonlocs]
      by_cases hc : isLoc g rank m
      · rw [if_pos hc, List.nil_append]; exact ih _
      · rw [if_neg hc, List.singleton_append, List.map_cons, List.nodup_cons]
        refine ⟨fun hm => ?_, ih _⟩
        obtain ⟨a, ha, he⟩ := List.mem_map.1 hm
        obtain ⟨k, hk, -, rfl⟩ := (hnl l (i + 1) a).1 ha
        simp only [NL.set] at he
        omega
  have hmemS : ∀ a, a ∈ sorted ↔ a ∈ nonlocs g rank 0 l := fun a => by rw [hperm.mem_iff, hs2.nl]
  have hndS : (sorted.map (·.mov)).Nodup := by
    refine (hperm.map (·.mov)).nodup_iff.2 ?_
    rw [hs2.nl]; exact hnd l 0
  have hgat := gather_spec ok F hr sorted (fun a ha => by
    obtain ⟨k, hk, h3, rfl⟩ := (hnl l 0 a).1 ((hmemS a).1 ha)
    exact ⟨_, _, hbox _ (List.getElem_mem hk), _, rfl, h3⟩) hsort
  obtain ⟨ha1, ha2⟩ := indList_pos sorted 0 s.lfm hndS
  refine ⟨assign sorted 0 s.lfm, indList sorted, ?_⟩
  have hfin : finishedLastPath npaths ntot sorted s = some (assign sorted 0 s.lfm, indList sorted) := by
    unfold finishedLastPath
    rw [if_neg (by rw [hs3]; simp [npaths]), if_neg (by rw [hs2.mov, hlen]; simp)]
  -- decoding
  have hdec : ∀ (k : Nat) (h : k < l.length), Decodes (fun (nonloc : Bool) ilink => if nonloc then (gatherNonloc g F rank (indList sorted)).getD ilink jl else F rank (ilink / 4) (Fin.ofNat 4 ilink))
      (glob g F) (assign sorted 0 s.lfm (0 + k)) l[k] := by
    intro k hk
    rw [Nat.zero_add]
    have hw := hs2.lfm k hk
    have hmu := (l[k]).mu.isLt
    by_cases hc : isLoc g rank l[k]
    · have : assign sorted 0 s.lfm k = word g rank l[k] := by
        rw [ha2 k ?_, hw]
        intro a ha he
        obtain ⟨k', hk', h3, rfl⟩ := (hnl l 0 a).1 ((hmemS a).1 ha)
        simp only [NL.set, Nat.zero_add] at he
        subst he
        exact h3 hc
      rw [this]
      unfold word
      rw [if_pos hc]
      have hf : flags l[k] % 16 = flags l[k] ∧ flags l[k] / 16 = 0 := by
        unfold flags; constructor <;> (split <;> split <;> split <;> omega)
      have e1 : (flags l[k] + ((getLoclxAndRankOfCoords g l[k].x).2 * 4 + l[k].mu) * 16) % 16 = flags l[k] := by omega
      have e2 : (flags l[k] + ((getLoclxAndRankOfCoords g l[k].x).2 * 4 + l[k].mu) * 16) / 16 = (getLoclxAndRankOfCoords g l[k].x).2 * 4 + l[k].mu := by omega
      refine ⟨?_, ?_, ?_, ?_⟩
      · rw [e1]; unfold flags; cases l[k].first <;> cases l[k].dag <;> cases l[k].summ <;> simp
      · rw [e1]; unfold flags; cases l[k].first <;> cases l[k].dag <;> cases l[k].summ <;> simp
      · rw [e1]; unfold flags; cases l[k].first <;> cases l[k].dag <;> cases l[k].summ <;> simp
      · rw [e1, e2]
        have : ¬ (flags l[k] / 4 % 2 = 1) := by unfold flags; cases l[k].first <;> cases l[k].dag <;> cases l[k].summ <;> simp
        simp only [this, decide_false, Bool.false_eq_true, if_false]
        unfold glob
        rw [show (getLoclxAndRankOfCoords g l[k].x).1 = rank from hc,
          show ((getLoclxAndRankOfCoords g l[k].x).2 * 4 + l[k].mu.val) / 4 = (getLoclxAndRankOfCoords g l[k].x).2 by omega]
        congr 1
        apply Fin.ext
        simp [Fin.ofNat]
    · obtain ⟨j, hj1, hj2⟩ := ha1 (NL.set g rank k l[k].x l[k].mu) ((hmemS _).2 ((hnl l 0 _).2 ⟨k, hk, hc, by rw [Nat.zero_add]⟩))
      simp only [NL.set, Nat.zero_add] at hj1 hj2
      rw [hj1, hw]
      unfold word
      rw [if_neg hc, Nat.add_zero]
      have e1 : (flags l[k] + (j * 16 + 4)) % 16 = flags l[k] + 4 := by
        have : flags l[k] + 4 < 16 := by unfold flags; split <;> split <;> split <;> omega
        omega
      have e2 : (flags l[k] + (j * 16 + 4)) / 16 = j := by
        have : flags l[k] + 4 < 16 := by unfold flags; split <;> split <;> split <;> omega
        omega
      refine ⟨?_, ?_, ?_, ?_⟩
      · rw [e1]; unfold flags; cases l[k].first <;> cases l[k].dag <;> cases l[k].summ <;> simp
      · rw [e1]; unfold flags; cases l[k].first <;> cases l[k].dag <;> cases l[k].summ <;> simp
      · rw [e1]; unfold flags; cases l[k].first <;> cases l[k].dag <;> cases l[k].summ <;> simp
      · rw [e1, e2]
        have : (flags l[k] + 4) / 4 % 2 = 1 := by unfold flags; cases l[k].first <;> cases l[k].dag <;> cases l[k].summ <;> simp
        simp only [this, decide_true, if_true]
        rw [hgat, List.getD_eq_getElem?_getD, List.getElem?_map, hj2]
        simp only [Option.map_some, Option.getD_some]
        have := linkId_site (hbox _ (List.getElem_mem hk)) (l[k]).mu
        rw [this.1, this.2.1]
  have hfold := compute_fold (assign sorted 0 s.lfm) _ (glob g F) l 0 ⟨0, 0, paths0⟩ hdec
  rw [hlen, ← List.range_eq_range'] at hfold
  -- the run on the description
  obtain ⟨G, gs, hgs⟩ : ∃ G gs, groups = G :: gs := by
    cases hg : groups with
    | nil => exact absurd hg h0
    | cons G gs => exact ⟨G, gs, rfl⟩
  obtain ⟨p, ps, hG⟩ : ∃ p ps, G = p :: ps := by
    cases hg : G with
    | nil => exact absurd hg (h1 G (by rw [hgs]; simp))
    | cons p ps => exact ⟨p, ps, rfl⟩
  have hGm : (p :: ps) ∈ groups := by rw [hgs, hG]; simp
  have hp := (h2 _ hGm p (by simp)).1
  have hlp : 0 < (movesOf g true false (siteOf g rank p.1) p.2).length := by
    rw [movesOf_length]; exact List.length_pos_of_ne_nil hp
  have hl2 : l = movesOf g true false (siteOf g rank p.1) p.2 ++ (ps.flatMap (fun p => movesOf g true true (siteOf g rank p.1) p.2) ++ allMoves g rank gs) := by
    rw [hldef, hgs, hG]; simp [allMoves, groupMoves]
  obtain ⟨s1, q1, q2, q3, q4⟩ := mvSteps_tail g (glob g F) rank ps (fun q hq => (h2 _ hGm q (by simp [hq])).1)
    ⟨0, pathProd g (glob g F) (siteOf g rank p.1) p.2, Function.update paths0 0 0⟩ (0 + (movesOf g true false (siteOf g rank p.1) p.2).length) (by omega)
  obtain ⟨s2, r1, r2, r3⟩ := mvSteps_groups g (glob g F) rank gs (fun G hG => h1 G (by rw [hgs]; simp [hG]))
    (fun G hG p hp => (h2 G (by rw [hgs]; simp [hG]) p hp).1) s1
    (0 + (movesOf g true false (siteOf g rank p.1) p.2).length +
          (ps.flatMap (fun p => movesOf g true true (siteOf g rank p.1) p.2)).length) (by omega)
  have hrun : mvSteps (glob g F) ⟨0, 0, paths0⟩ 0 l = s2 := by
    rw [hl2, mvSteps_append, mvSteps_path g _ false _ _ hp, if_neg (by simp), mvSteps_append, q1]
    exact r1
  rw [hrun] at hfold
  simp only at q2 q3
  have hnp : npaths - 1 = s2.ipath := by rw [r2, q2]; simp [npaths, hgs]
  refine ⟨Function.update s2.paths (npaths - 1) (s2.paths (npaths - 1) + s2.cur), hfin, ?_, fun k hk => ?_⟩
  · unfold computeLx
    simp only
    rw [hfold, if_neg (by rw [hnp]; simp)]
  · have := r3 k (by rw [q2]; simp only [npaths, hgs, List.length_cons] at hk; omega)
    have e : Function.update s2.paths (npaths - 1) (s2.paths (npaths - 1) + s2.cur) k =
        (if k = s1.ipath + gs.length then s2.paths k + s2.cur else s2.paths k) := by
      rw [hnp, r2]
      by_cases hk2 : k = s1.ipath + gs.length
      · rw [if_pos hk2, hk2, Function.update_self]
      · rw [if_neg hk2, Function.update_of_ne hk2]
    rw [e, this, q2, if_neg (by omega)]
    by_cases hk0 : k = 0
    · rw [if_pos hk0, hk0, q3, hgs, hG]
      simp [groupSum]
    · rw [if_neg hk0, hgs]
      obtain ⟨j, rfl⟩ : ∃ j, k = j + 1 := ⟨k - 1, by omega⟩
      simp

/-- C32, violated: the last allowed movement makes the code write beyond the end of `link_for_movements`, which has `ntot` elements
(`/repo/src/operations/su3_paths/arbitrary.hpp:48,112`): whatever the memory held there is lost. -/
theorem C32_paths_out_of_bounds (ntot : Nat) (s : St) (hn : s.curMov + 1 = ntot) :
    ∃ s', switchToNextStep ntot s = some s' ∧ s'.lfm ntot = 0 := by
  unfold switchToNextStep
  rw [if_neg (by omega)]
  exact ⟨_, rfl, by simp [hn]⟩

/-- the hypotheses of `C32_paths` are met: two outputs, the second the sum of two paths, one of which crosses ranks -/
example : ∃ groups : List (List (Nat × List Move)), groups.length = 2 ∧ (∀ G ∈ groups, G ≠ []) ∧
    (∀ G ∈ groups, ∀ p ∈ G, p.2 ≠ [] ∧ p.1 < exGeo.locVol) :=
  ⟨[[(0, [(0, true), (1, true), (0, false), (1, false)])], [(1, List.replicate 9 (0, true)), (3, [(2, false)])]], by decide, by decide, by decide⟩

end Nissa.Paths
