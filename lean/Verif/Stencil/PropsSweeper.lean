import Verif.Stencil.Sweeper
import Verif.Geometry.PropsLx
import Verif.Geometry.MixRadix
import Verif.Stencil.Lattice

/-! # The sets of links of the sweeper (property C70)

* every link of the rank is visited exactly once in a sweep, whatever the parity, and the set in which it is visited is
  determined by the half of the local lattice it belongs to, its direction and its parity;
* the links needed to compute the staples of a link are never in its same set, and those held by another rank are never in the
  same box, for the Wilson and for the Symanzik action. -/

set_option linter.all false

namespace Nissa.Sweep
open Nissa.Lx Nissa.Sten Nissa.Gauge Nissa.Paths Nissa.Su3f

/-! ## Specification -/

/-- Local coordinates of a site -/
def locSite (g : Geo) (c : Coords) : Coords := fun mu => c mu % g.loc mu
/-- Rank of a site -/
def rankSite (g : Geo) (c : Coords) : Coords := fun mu => c mu / g.loc mu
/-- In which half of the local lattice the site is, in every direction -/
def half (g : Geo) (x : Coords) : Coords := fun mu => if x mu < g.loc mu / 2 then 0 else 1
/-- Sites visited while the set `t` of box, direction and parity is treated: after those of the previous sets -/
def setSites (gpar : Nat) (s : Geom) (t : Nat × Dir × Nat) : List Nat :=
  let before := ((triples gpar).takeWhile (fun u => u ≠ t)).foldl (fun n u => n + s.nsite (slot gpar u)) 0
  (s.ivol.drop before).take (s.nsite (slot gpar t))

/-! ## Lemmas -/

theorem slot_inj {gpar : Nat} {t u : Nat × Dir × Nat} (ht : t.2.2 < gpar) (hu : u.2.2 < gpar) (h : slot gpar t = slot gpar u) : t = u := by
  obtain ⟨b, d, p⟩ := t
  obtain ⟨b', d', p'⟩ := u
  simp only [slot] at *
  have h1 : p = p' := by
    have := congrArg (· % gpar) h
    simpa [Nat.add_mul_mod_self_left, Nat.mod_eq_of_lt ht, Nat.mod_eq_of_lt hu] using this
  have h0 : 0 < gpar := by omega
  have h2 : d.val + 4 * b = d'.val + 4 * b' := by
    subst h1
    exact Nat.eq_of_mul_eq_mul_left h0 (by omega)
  have hd := d.isLt
  have hd' := d'.isLt
  have : d = d' := Fin.ext (by omega)
  subst this
  have : b = b' := by omega
  subst this h1
  rfl

theorem mem_triples {gpar : Nat} {t : Nat × Dir × Nat} : t ∈ triples gpar ↔ t.1 < 16 ∧ t.2.2 < gpar := by
  obtain ⟨b, d, p⟩ := t
  simp only [triples, List.mem_flatMap, List.mem_map, List.mem_range]
  constructor
  · rintro ⟨b', hb, d', hd, p', hp, h⟩
    simp only [Prod.mk.injEq] at h
    obtain ⟨rfl, rfl, rfl⟩ := h
    exact ⟨hb, hp⟩
  · rintro ⟨hb, hp⟩
    exact ⟨b, hb, d, mem_dirs d, p, hp, rfl⟩

theorem nodup_flatMap_tag {α β : Type} (l : List α) (f : α → List β) (τ : β → α) (hl : l.Nodup) (hf : ∀ t ∈ l, (f t).Nodup)
    (ht : ∀ t ∈ l, ∀ x ∈ f t, τ x = t) : (l.flatMap f).Nodup := by
  rw [List.nodup_flatMap]
  refine ⟨hf, ?_⟩
  refine List.Pairwise.imp_of_mem ?_ hl
  intro a b ha hb hab x hxa hxb
  exact hab ((ht a ha x hxa).symm.trans (ht b hb x hxb))

theorem nodup_triples (gpar : Nat) : (triples gpar).Nodup := by
  refine nodup_flatMap_tag _ _ (fun t => t.1) List.nodup_range ?_ ?_
  · intro b _
    refine nodup_flatMap_tag _ _ (fun t => t.2.1) (by decide) ?_ ?_
    · intro d _
      exact List.Nodup.map (fun p q h => by simpa using h) List.nodup_range
    · intro d _ x hx
      obtain ⟨p, _, rfl⟩ := List.mem_map.1 hx
      rfl
  · intro b _ x hx
    obtain ⟨d, _, hx⟩ := List.mem_flatMap.1 hx
    obtain ⟨p, _, rfl⟩ := List.mem_map.1 hx
    rfl

/-- sites of the set, in the order in which they are found -/
def block (g : Geo) (parComp : Coords → Dir → Int) (t : Nat × Dir × Nat) : List Nat :=
  (((List.range (nsitePerBox g t.1)).map (siteOf g t.1)).filter (fun x => parComp x t.2.1 = t.2.2)).map (fun x => lxOfCoord x g.loc)

theorem inner_spec (g : Geo) (gpar : Nat) (parComp : Coords → Dir → Int) (hp : ∀ x d, 0 ≤ parComp x d ∧ parComp x d < gpar)
    (t : Nat × Dir × Nat) (l : List Nat) : ∀ s : Geom, l.foldlM (siteStep g gpar parComp t) s =
      some ⟨s.ivol ++ ((l.map (siteOf g t.1)).filter (fun x => parComp x t.2.1 = t.2.2)).map (fun x => lxOfCoord x g.loc),
        Function.update s.nsite (slot gpar t)
          (s.nsite (slot gpar t) + ((l.map (siteOf g t.1)).filter (fun x => parComp x t.2.1 = t.2.2)).length)⟩ := by
  induction l with
  | nil => intro s; simp
  | cons i l ih =>
    intro s
    have h := hp (siteOf g t.1 i) t.2.1
    have hn : ¬ ((gpar : Int) ≤ parComp (siteOf g t.1 i) t.2.1 ∨ parComp (siteOf g t.1 i) t.2.1 < 0) := by omega
    rw [List.foldlM_cons]
    by_cases he : parComp (siteOf g t.1 i) t.2.1 = t.2.2
    · have e : siteStep g gpar parComp t s i = some ⟨s.ivol ++ [lxOfCoord (siteOf g t.1 i) g.loc],
          Function.update s.nsite (slot gpar t) (s.nsite (slot gpar t) + 1)⟩ := by
        simp only [siteStep, if_neg hn, if_pos he]
      rw [e]
      show List.foldlM _ _ l = _
      rw [ih]
      simp only [List.map_cons, List.filter_cons, he, decide_true, if_true, List.append_assoc, List.singleton_append, List.length_cons,
        Function.update_self, Function.update_idem]
      congr 2
      simp only [Nat.add_assoc, Nat.add_comm 1]
    · have e : siteStep g gpar parComp t s i = some s := by
        simp only [siteStep, if_neg hn, if_neg he]
      rw [e]
      show List.foldlM _ _ l = _
      rw [ih]
      simp only [List.map_cons, List.filter_cons, he, decide_false, Bool.false_eq_true, if_false]

theorem outer_spec (g : Geo) (gpar : Nat) (parComp : Coords → Dir → Int) (hp : ∀ x d, 0 ≤ parComp x d ∧ parComp x d < gpar)
    (l : List (Nat × Dir × Nat)) : ∀ s : Geom, l.foldlM (fun s t =>
      (List.range (nsitePerBox g t.1)).foldlM (siteStep g gpar parComp t) ⟨s.ivol, Function.update s.nsite (slot gpar t) 0⟩) s =
      some ⟨s.ivol ++ l.flatMap (block g parComp),
        l.foldl (fun n t => Function.update n (slot gpar t) (block g parComp t).length) s.nsite⟩ := by
  induction l with
  | nil => intro s; simp
  | cons t l ih =>
    intro s
    rw [List.foldlM_cons, inner_spec g gpar parComp hp]
    show List.foldlM _ _ l = _
    rw [ih]
    simp only [List.flatMap_cons, List.append_assoc, List.foldl_cons, Function.update_self, Function.update_idem, block, List.length_map,
      Nat.zero_add]

theorem fold_slot (gpar : Nat) (f : Nat × Dir × Nat → Nat) (l : List (Nat × Dir × Nat)) (hl : ∀ t ∈ l, t.2.2 < gpar) :
    ∀ (n : Nat → Nat) (t : Nat × Dir × Nat), t.2.2 < gpar →
      (t ∉ l → l.foldl (fun n t => Function.update n (slot gpar t) (f t)) n (slot gpar t) = n (slot gpar t)) ∧
      (t ∈ l → l.foldl (fun n t => Function.update n (slot gpar t) (f t)) n (slot gpar t) = f t) := by
  induction l with
  | nil => intro n t _; simp
  | cons u l ih =>
    intro n t ht
    have ih' := ih (fun t h => hl t (List.mem_cons_of_mem _ h)) (Function.update n (slot gpar u) (f u)) t ht
    rw [List.foldl_cons]
    by_cases h : t ∈ l
    · exact ⟨fun h' => absurd (List.mem_cons_of_mem _ h) h', fun _ => ih'.2 h⟩
    · rw [ih'.1 h]
      constructor
      · intro hn
        rw [Function.update_of_ne]
        intro e
        exact hn (by rw [slot_inj ht (hl u (List.mem_cons_self ..)) e]; exact List.mem_cons_self ..)
      · intro hm
        rcases List.mem_cons.1 hm with rfl | hm
        · rw [Function.update_self]
        · exact absurd hm h

theorem initGeom_spec (g : Geo) (gpar : Nat) (parComp : Coords → Dir → Int) (hp : ∀ x d, 0 ≤ parComp x d ∧ parComp x d < gpar)
    (n0 : Nat → Nat) : ∃ s, initGeom g gpar parComp n0 = some s ∧ s.ivol = (triples gpar).flatMap (block g parComp) ∧
      ∀ t ∈ triples gpar, s.nsite (slot gpar t) = (block g parComp t).length := by
  refine ⟨_, outer_spec g gpar parComp hp (triples gpar) ⟨[], n0⟩, rfl, ?_⟩
  intro t ht
  exact (fold_slot gpar (fun t => (block g parComp t).length) (triples gpar) (fun t h => (mem_triples.1 h).2) n0 t (mem_triples.1 ht).2).2 ht

theorem range_getD (pre l post : List Nat) : (List.range l.length).map (fun k => (pre ++ (l ++ post)).getD (k + pre.length) 0) = l := by
  apply List.ext_getElem
  · simp
  · intro i h1 h2
    have h3 : i < l.length := h2
    simp only [List.getElem_map, List.getElem_range]
    rw [List.getD_eq_getElem?_getD, List.getElem?_append_right (by omega), Nat.add_sub_cancel, List.getElem?_append_left h3,
      List.getElem?_eq_getElem h3]
    rfl

theorem visit_spec (gpar : Nat) (f : Nat × Dir × Nat → List Nat) (s : Geom) (l : List (Nat × Dir × Nat))
    (hn : ∀ t ∈ l, s.nsite (slot gpar t) = (f t).length) : ∀ (pre : List Nat) (acc : List (Nat × Dir)),
      s.ivol = pre ++ l.flatMap f → l.foldl (fun (a : Nat × List (Nat × Dir)) t => (a.1 + s.nsite (slot gpar t),
        a.2 ++ (List.range (s.nsite (slot gpar t))).map (fun k => (s.ivol.getD (k + a.1) 0, t.2.1)))) (pre.length, acc) =
      ((pre ++ l.flatMap f).length, acc ++ l.flatMap (fun t => (f t).map (fun i => (i, t.2.1)))) := by
  induction l with
  | nil => intro pre acc _; simp
  | cons t l ih =>
    intro pre acc he
    rw [List.foldl_cons]
    have h1 := hn t (List.mem_cons_self ..)
    have he' : s.ivol = pre ++ (f t ++ l.flatMap f) := by rw [he, List.flatMap_cons]
    have e : (List.range (s.nsite (slot gpar t))).map (fun k => (s.ivol.getD (k + pre.length) 0, t.2.1)) =
        (f t).map (fun i => (i, t.2.1)) := by
      have h2 := range_getD pre (f t) (l.flatMap f)
      rw [h1, he']
      conv_rhs => rw [← h2]
      rw [List.map_map]
      rfl
    have e2 : pre.length + s.nsite (slot gpar t) = (pre ++ f t).length := by rw [List.length_append, h1]
    beta_reduce
    simp only [e, e2]
    rw [ih (fun u hu => hn u (List.mem_cons_of_mem _ hu)) (pre ++ f t) _ (by rw [he', List.append_assoc])]
    simp only [List.flatMap_cons, List.append_assoc]

theorem visits_spec (gpar : Nat) (f : Nat × Dir × Nat → List Nat) (s : Geom) (hs : s.ivol = (triples gpar).flatMap f)
    (hn : ∀ t ∈ triples gpar, s.nsite (slot gpar t) = (f t).length) :
    visits gpar s = (triples gpar).flatMap (fun t => (f t).map (fun i => (i, t.2.1))) := by
  have h := visit_spec gpar f s (triples gpar) hn [] [] (by simpa using hs)
  have h' := congrArg Prod.snd h
  simpa [visits, visitLoop] using h'

theorem setSites_spec (gpar : Nat) (f : Nat × Dir × Nat → List Nat) (s : Geom) (hs : s.ivol = (triples gpar).flatMap f)
    (hn : ∀ t ∈ triples gpar, s.nsite (slot gpar t) = (f t).length) (t : Nat × Dir × Nat) (ht : t ∈ triples gpar) :
    setSites gpar s t = f t := by
  obtain ⟨a, b, e⟩ := List.append_of_mem ht
  have hnd := nodup_triples gpar
  rw [e] at hnd
  have hta : t ∉ a := by
    intro h
    have := (List.nodup_append.1 hnd).2.2
    exact (this t h t (List.mem_cons_self ..)) rfl
  have e1 : (triples gpar).takeWhile (fun u => u ≠ t) = a := by
    rw [e, List.takeWhile_append_of_pos]
    · rw [List.takeWhile_cons]
      simp
    · intro u hu
      simp only [ne_eq, decide_not, Bool.not_eq_true', decide_eq_false_iff_not]
      rintro rfl
      exact hta hu
  have e2 : ∀ (l : List (Nat × Dir × Nat)) (k : Nat), (∀ u ∈ l, s.nsite (slot gpar u) = (f u).length) →
      l.foldl (fun n u => n + s.nsite (slot gpar u)) k = k + (l.flatMap f).length := by
    intro l
    induction l with
    | nil => intro k _; simp
    | cons u l ih =>
      intro k h
      rw [List.foldl_cons, ih _ (fun v hv => h v (List.mem_cons_of_mem _ hv)), h u (List.mem_cons_self ..), List.flatMap_cons,
        List.length_append, Nat.add_assoc]
  have h3 : ∀ u ∈ a, s.nsite (slot gpar u) = (f u).length := fun u hu => hn u (by rw [e]; exact List.mem_append_left _ hu)
  simp only [setSites, e1]
  rw [e2 a 0 h3, hn t ht, hs, e, List.flatMap_append, List.flatMap_cons, Nat.zero_add, List.drop_left, List.take_left]

/-! ### sites of the boxes -/

theorem boxCoord_lt (b : Nat) (hb : b < 16) (mu : Dir) : boxCoord b mu < 2 :=
  (coordOfLx_spec (s := fun _ => 2) (fun _ => by norm_num) (i := b) (by simpa [volOfLx, dirs] using hb)).1 mu

theorem boxCoord_zero (mu : Dir) : boxCoord 0 mu = 0 := by revert mu; decide

theorem boxSize_eq (g : Geo) (b : Nat) (mu : Dir) :
    boxSize g b mu = if boxCoord b mu = 0 then g.loc mu / 2 else g.loc mu - g.loc mu / 2 := by
  unfold boxSize
  by_cases h : b = 0
  · subst h; simp [boxCoord_zero]
  · simp [h]

theorem boxSize_pos (g : Geo) (h2 : ∀ mu, 2 ≤ g.loc mu) (b : Nat) (mu : Dir) : 0 < boxSize g b mu := by
  rw [boxSize_eq]; have := h2 mu; split_ifs <;> omega

theorem nsitePerBox_eq (g : Geo) (b : Nat) : nsitePerBox g b = volOfLx (boxSize g b) := rfl

theorem siteOf_spec (g : Geo) (h2 : ∀ mu, 2 ≤ g.loc mu) (b : Nat) (hb : b < 16) (i : Nat) (hi : i < nsitePerBox g b) :
    (∀ mu, siteOf g b i mu < g.loc mu) ∧ half g (siteOf g b i) = boxCoord b := by
  have hs := (coordOfLx_spec (boxSize_pos g h2 b) (i := i) (by rw [← nsitePerBox_eq]; exact hi)).1
  have key : ∀ mu, siteOf g b i mu < g.loc mu ∧ half g (siteOf g b i) mu = boxCoord b mu := by
    intro mu
    have h := hs mu
    have hc := boxCoord_lt b hb mu
    have hl := h2 mu
    rw [boxSize_eq] at h
    have e0 : siteOf g b i mu = g.loc mu / 2 * boxCoord b mu + coordOfLx i (boxSize g b) mu := by
      show boxSize g 0 mu * boxCoord b mu + _ = _
      rw [boxSize_eq g 0 mu, boxCoord_zero, if_pos rfl]
    unfold half
    rw [e0]
    rcases Nat.lt_or_ge (boxCoord b mu) 1 with h0 | h0
    · have e : boxCoord b mu = 0 := by omega
      rw [e, if_pos rfl] at h
      rw [e, Nat.mul_zero, Nat.zero_add, if_pos h]
      exact ⟨by omega, rfl⟩
    · have e : boxCoord b mu = 1 := by omega
      rw [e, if_neg (by norm_num)] at h
      rw [e, Nat.mul_one, if_neg (by omega)]
      exact ⟨by omega, rfl⟩
  exact ⟨fun mu => (key mu).1, funext fun mu => (key mu).2⟩

theorem siteOf_inj (g : Geo) (h2 : ∀ mu, 2 ≤ g.loc mu) (b : Nat) (i j : Nat) (hi : i < nsitePerBox g b) (hj : j < nsitePerBox g b)
    (h : siteOf g b i = siteOf g b j) : i = j := by
  rw [nsitePerBox_eq] at hi hj
  have a := coordOfLx_spec (boxSize_pos g h2 b) hi
  have a' := coordOfLx_spec (boxSize_pos g h2 b) hj
  rw [← a.2, ← a'.2]
  congr 1
  funext mu
  have := congrFun h mu
  simp only [siteOf] at this
  omega

/-- index of the box with the given coordinates -/
def boxOf (h : Coords) : Nat := lxOfCoord h (fun _ => 2)

theorem half_lt (g : Geo) (x : Coords) (mu : Dir) : half g x mu < 2 := by unfold half; split_ifs <;> norm_num

theorem boxOf_half (g : Geo) (x : Coords) : boxOf (half g x) < 16 ∧ boxCoord (boxOf (half g x)) = half g x :=
  ⟨by simpa [volOfLx, dirs, boxOf] using lxOfCoord_lt (x := half g x) (s := fun _ => 2) (half_lt g x),
   coordOfLx_lxOfCoord (half_lt g x)⟩

theorem boxOf_boxCoord (b : Nat) (hb : b < 16) : boxOf (boxCoord b) = b :=
  (coordOfLx_spec (s := fun _ => 2) (fun _ => by norm_num) (i := b) (by simpa [volOfLx, dirs] using hb)).2

theorem siteOf_surj (g : Geo) (h2 : ∀ mu, 2 ≤ g.loc mu) (x : Coords) (hx : ∀ mu, x mu < g.loc mu) :
    ∃ i, i < nsitePerBox g (boxOf (half g x)) ∧ siteOf g (boxOf (half g x)) i = x := by
  obtain ⟨hb, hc⟩ := boxOf_half g x
  let y : Coords := fun mu => x mu - boxSize g 0 mu * half g x mu
  have h0 : ∀ mu, boxSize g 0 mu = g.loc mu / 2 := fun mu => by rw [boxSize_eq, boxCoord_zero, if_pos rfl]
  have key : ∀ mu, y mu < boxSize g (boxOf (half g x)) mu ∧ boxSize g 0 mu * half g x mu + y mu = x mu := by
    intro mu
    have hl := h2 mu
    have hxm := hx mu
    show x mu - boxSize g 0 mu * half g x mu < _ ∧ boxSize g 0 mu * half g x mu + (x mu - boxSize g 0 mu * half g x mu) = _
    rw [boxSize_eq g (boxOf (half g x)), hc, h0]
    unfold half
    by_cases h : x mu < g.loc mu / 2
    · simp only [if_pos h, if_true, Nat.mul_zero]
      omega
    · simp only [if_neg h, Nat.one_ne_zero, if_false, Nat.mul_one]
      omega
  refine ⟨lxOfCoord y (boxSize g (boxOf (half g x))), lxOfCoord_lt fun mu => (key mu).1, ?_⟩
  funext mu
  simp only [siteOf]
  rw [coordOfLx_lxOfCoord fun mu => (key mu).1, hc]
  exact (key mu).2

theorem mem_block (g : Geo) (ok : g.Ok) (h2 : ∀ mu, 2 ≤ g.loc mu) (parComp : Coords → Dir → Int) (t : Nat × Dir × Nat) (ht : t.1 < 16) (i : Nat) :
    i ∈ block g parComp t ↔ i < g.locVol ∧ half g (coordOfLx i g.loc) = boxCoord t.1 ∧ parComp (coordOfLx i g.loc) t.2.1 = t.2.2 := by
  simp only [block, List.mem_map, List.mem_filter, List.mem_range, decide_eq_true_eq]
  constructor
  · rintro ⟨x, ⟨⟨k, hk, rfl⟩, hp⟩, rfl⟩
    obtain ⟨hl, hh⟩ := siteOf_spec g h2 t.1 ht k hk
    rw [coordOfLx_lxOfCoord hl]
    exact ⟨by rw [locVol_eq ok]; exact lxOfCoord_lt hl, hh, hp⟩
  · rintro ⟨hi, hh, hp⟩
    rw [locVol_eq ok] at hi
    obtain ⟨hc, hx⟩ := coordOfLx_spec (loc_pos ok) hi
    obtain ⟨k, hk, e⟩ := siteOf_surj g h2 _ hc
    rw [hh, boxOf_boxCoord t.1 ht] at hk e
    exact ⟨_, ⟨⟨k, hk, e⟩, hp⟩, hx⟩

theorem nodup_block (g : Geo) (h2 : ∀ mu, 2 ≤ g.loc mu) (parComp : Coords → Dir → Int) (t : Nat × Dir × Nat) (ht : t.1 < 16) :
    (block g parComp t).Nodup := by
  have h1 : ((List.range (nsitePerBox g t.1)).map (siteOf g t.1)).Nodup :=
    List.Nodup.map_on (fun i hi j hj h => siteOf_inj g h2 t.1 i j (List.mem_range.1 hi) (List.mem_range.1 hj) h) List.nodup_range
  refine List.Nodup.map_on ?_ (h1.filter _)
  intro x hx y hy h
  obtain ⟨i, hi, rfl⟩ := List.mem_map.1 (List.mem_of_mem_filter hx)
  obtain ⟨j, hj, rfl⟩ := List.mem_map.1 (List.mem_of_mem_filter hy)
  exact lxOfCoord_inj (siteOf_spec g h2 t.1 ht i (List.mem_range.1 hi)).1 (siteOf_spec g h2 t.1 ht j (List.mem_range.1 hj)).1 h

theorem hit_count (n : Nat) (vs : List (Nat × Dir)) (hv : ∀ v ∈ vs, v.1 < n) : ∀ hit : Nat × Dir → Nat,
    ∃ h', vs.foldlM (fun (hit : Nat × Dir → Nat) v => if n ≤ v.1 then none else some (Function.update hit v (hit v + 1))) hit = some h' ∧
      ∀ v, h' v = hit v + vs.count v := by
  induction vs with
  | nil => intro hit; exact ⟨hit, rfl, fun v => by simp⟩
  | cons w vs ih =>
    intro hit
    obtain ⟨h', e, hc⟩ := ih (fun v h => hv v (List.mem_cons_of_mem _ h)) (Function.update hit w (hit w + 1))
    refine ⟨h', ?_, ?_⟩
    · rw [List.foldlM_cons, if_neg (by have := hv w (List.mem_cons_self ..); omega)]
      exact e
    · intro v
      rw [hc, List.count_cons]
      by_cases h : v = w
      · subst h; simp; omega
      · rw [Function.update_of_ne h, if_neg (by simpa using fun e => h e.symm)]
        rfl

/-! ## Theorems -/

/-- The initialisation goes through, the visit meets every link of the rank exactly once (so that the check of the program
never stops it), and the sites met while a set is treated are exactly those of the half lattices and of the parity of the
set.  It holds for every parity with values in the range declared. -/
theorem C70_each_once (g : Geo) (ok : g.Ok) (h2 : ∀ mu, 2 ≤ g.loc mu) (gpar : Nat) (parComp : Coords → Dir → Int)
    (hp : ∀ x d, 0 ≤ parComp x d ∧ parComp x d < gpar) (n0 : Nat → Nat) :
    ∃ s, initGeom g gpar parComp n0 = some s ∧
      (∀ i dir, (visits gpar s).count (i, dir) = if i < g.locVol then 1 else 0) ∧
      checkHitExactlyOnce g gpar s = true ∧
      (∀ t ∈ triples gpar, ∀ i, i ∈ setSites gpar s t ↔
        i < g.locVol ∧ half g (coordOfLx i g.loc) = boxCoord t.1 ∧ parComp (coordOfLx i g.loc) t.2.1 = t.2.2) := by
  obtain ⟨s, hs, hi, hn⟩ := initGeom_spec g gpar parComp hp n0
  have hv := visits_spec gpar (block g parComp) s hi hn
  have mb := fun t (ht : t ∈ triples gpar) i => mem_block g ok h2 parComp t (mem_triples.1 ht).1 i
  have hcount : ∀ i dir, (visits gpar s).count (i, dir) = if i < g.locVol then 1 else 0 := by
    intro i dir
    have hnd : (visits gpar s).Nodup := by
      rw [hv]
      refine nodup_flatMap_tag _ _ (fun v => (boxOf (half g (coordOfLx v.1 g.loc)), v.2, (parComp (coordOfLx v.1 g.loc) v.2).toNat))
        (nodup_triples gpar) ?_ ?_
      · intro t ht
        exact List.Nodup.map (fun p q h => by simpa using h) (nodup_block g h2 parComp t (mem_triples.1 ht).1)
      · intro t ht v hvm
        obtain ⟨k, hk, rfl⟩ := List.mem_map.1 hvm
        obtain ⟨_, h1, h3⟩ := (mb t ht k).1 hk
        show (boxOf (half g (coordOfLx k g.loc)), t.2.1, (parComp (coordOfLx k g.loc) t.2.1).toNat) = t
        rw [h1, h3, boxOf_boxCoord t.1 (mem_triples.1 ht).1]
        rfl
    rw [hnd.count]
    have hmem : (i, dir) ∈ visits gpar s ↔ i < g.locVol := by
      rw [hv]
      constructor
      · intro h
        obtain ⟨t, ht, h⟩ := List.mem_flatMap.1 h
        obtain ⟨k, hk, e⟩ := List.mem_map.1 h
        have e1 : k = i := congrArg Prod.fst e
        rw [← e1]
        exact ((mb t ht k).1 hk).1
      · intro h
        obtain ⟨hb, hc⟩ := boxOf_half g (coordOfLx i g.loc)
        have hpp := hp (coordOfLx i g.loc) dir
        refine List.mem_flatMap.2 ⟨(boxOf (half g (coordOfLx i g.loc)), dir, (parComp (coordOfLx i g.loc) dir).toNat), ?_, ?_⟩
        · exact mem_triples.2 ⟨hb, by show (parComp (coordOfLx i g.loc) dir).toNat < gpar; omega⟩
        · refine List.mem_map.2 ⟨i, ?_, rfl⟩
          refine (mem_block g ok h2 parComp _ hb i).2 ⟨h, hc.symm, ?_⟩
          show parComp (coordOfLx i g.loc) dir = ((parComp (coordOfLx i g.loc) dir).toNat : Int)
          omega
    by_cases h : i < g.locVol
    · rw [if_pos (hmem.2 h), if_pos h]
    · rw [if_neg (fun h' => h (hmem.1 h')), if_neg h]
  refine ⟨s, hs, hcount, ?_, ?_⟩
  · have hlt : ∀ v ∈ visits gpar s, v.1 < g.locVol := by
      intro v hvm
      have := hcount v.1 v.2
      have h1 : 0 < (visits gpar s).count v := List.count_pos_iff.2 hvm
      by_contra hc
      rw [if_neg hc] at this
      have e : (v.1, v.2) = v := rfl
      rw [e] at this
      omega
    obtain ⟨h', e, hc⟩ := hit_count g.locVol (visits gpar s) hlt (fun _ => 0)
    simp only [checkHitExactlyOnce]
    rw [e]
    simp only [List.all_eq_true, List.mem_range, beq_iff_eq]
    intro i hi mu _
    rw [hc, hcount, if_pos hi]
  · intro t ht i
    rw [setSites_spec gpar (block g parComp) s hi hn t ht]
    exact mb t ht i

/-- the parities of the two sweepers are in the range -/
theorem wilson_par_range (x : Coords) (d : Dir) : 0 ≤ Wilson_par x d ∧ Wilson_par x d < ((2 : Nat) : Int) := by
  unfold Wilson_par; omega
theorem symanzik_par_range (x : Coords) (d : Dir) : 0 ≤ Symanzik_par x d ∧ Symanzik_par x d < ((4 : Nat) : Int) := by
  unfold Symanzik_par; omega

/-- a case: both sweepers on a lattice 8x4x4x6 divided among twelve ranks -/
example : ∃ s, initGeom exGeo 2 Wilson_par (fun _ => 7) = some s ∧ checkHitExactlyOnce exGeo 2 s = true := by
  obtain ⟨s, h, _, h', _⟩ := C70_each_once exGeo (by decide) (by decide) 2 Wilson_par wilson_par_range (fun _ => 7)
  exact ⟨s, h, h'⟩

/-! ### the links used -/

theorem step_box (loc R L x y : Nat) (d : Int) (e : Nat) (hL : L = R * loc) (hx : x < L) (hd : -(e : Int) ≤ d ∧ d ≤ e) (hloc : 2 * e ≤ loc)
    (he : 0 < e) (hy : (y : Int) = ((x : Int) + d) % L)
    (hb : (if x % loc < loc / 2 then 0 else 1) = (if y % loc < loc / 2 then 0 else 1)) :
    y / loc = x / loc ∧ ((y % loc : Nat) : Int) = (x % loc : Nat) + d := by
  have hloc0 : 0 < loc := by omega
  have hLp : 0 < L := by omega
  have hlx : x % loc < loc := Nat.mod_lt _ hloc0
  have hly : y % loc < loc := Nat.mod_lt _ hloc0
  have hyL : y < L := by
    have := Int.emod_lt_of_pos ((x : Int) + d) (show (0 : Int) < L by omega)
    omega
  have hxd : x = loc * (x / loc) + x % loc := (Nat.div_add_mod x loc).symm
  have hyd : y = loc * (y / loc) + y % loc := (Nat.div_add_mod y loc).symm
  -- the local parts are equal modulo loc
  have hm : (loc : Int) ∣ ((y % loc : Nat) : Int) - ((x % loc : Nat) + d) := by
    have h1 : (L : Int) ∣ (x : Int) + d - y := by
      rw [hy]; exact Int.dvd_self_sub_of_emod_eq rfl
    have h2 : (loc : Int) ∣ (L : Int) := ⟨R, by rw [hL]; push_cast; ring⟩
    have h3 := h2.trans h1
    have e1 : (x : Int) = loc * (x / loc : Nat) + (x % loc : Nat) := by exact_mod_cast hxd
    have e2 : (y : Int) = loc * (y / loc : Nat) + (y % loc : Nat) := by exact_mod_cast hyd
    have e3 : ((y % loc : Nat) : Int) - ((x % loc : Nat) + d) = -((x : Int) + d - y) + loc * ((x / loc : Nat) - (y / loc : Nat) : Int) := by
      rw [e1, e2]
      push_cast
      have a1 : ((loc : Int) * (x / loc : Int) + (x : Int) % loc) % loc = (x : Int) % loc := by
        rw [Int.mul_add_emod_self_left, Int.emod_emod_of_dvd _ (dvd_refl _)]
      have a2 : ((loc : Int) * (y / loc : Int) + (y : Int) % loc) % loc = (y : Int) % loc := by
        rw [Int.mul_add_emod_self_left, Int.emod_emod_of_dvd _ (dvd_refl _)]
      have a3 : ((loc : Int) * (x / loc : Int) + (x : Int) % loc) / loc = (x : Int) / loc := by rw [Int.mul_ediv_add_emod]
      have a4 : ((loc : Int) * (y / loc : Int) + (y : Int) % loc) / loc = (y : Int) / loc := by rw [Int.mul_ediv_add_emod]
      simp only [Int.mul_ediv_add_emod]
      have b1 := Int.mul_ediv_add_emod (x : Int) loc
      have b2 := Int.mul_ediv_add_emod (y : Int) loc
      linarith
    rw [e3]
    exact dvd_add (h3.neg_right) (Dvd.intro _ rfl)
  obtain ⟨k, hk⟩ := hm
  have hk0 : k = 0 := by
    by_contra hne
    have hcase : k ≤ -1 ∨ 1 ≤ k := by omega
    split_ifs at hb with c1 c2 c2
    · rcases hcase with h | h
      · have : (loc : Int) * k ≤ loc * (-1) := mul_le_mul_of_nonneg_left h (by omega)
        omega
      · have : (loc : Int) * 1 ≤ loc * k := mul_le_mul_of_nonneg_left h (by omega)
        omega
    · rcases hcase with h | h
      · have : (loc : Int) * k ≤ loc * (-1) := mul_le_mul_of_nonneg_left h (by omega)
        omega
      · have : (loc : Int) * 1 ≤ loc * k := mul_le_mul_of_nonneg_left h (by omega)
        omega
  have hloc' : ((y % loc : Nat) : Int) = (x % loc : Nat) + d := by rw [hk0] at hk; omega
  refine ⟨?_, hloc'⟩
  -- no wrap: y = x + d, except by a multiple of L
  have h1 : (L : Int) ∣ (x : Int) + d - y := by rw [hy]; exact Int.dvd_self_sub_of_emod_eq rfl
  have e1 : (x : Int) = loc * (x / loc : Nat) + (x % loc : Nat) := by exact_mod_cast hxd
  have e2 : (y : Int) = loc * (y / loc : Nat) + (y % loc : Nat) := by exact_mod_cast hyd
  have e4 : (x : Int) + d - y = loc * ((x / loc : Nat) - (y / loc : Nat) : Int) := by
    have : (x : Int) + d - y = (loc * (x / loc : Nat) + (x % loc : Nat)) + d - (loc * (y / loc : Nat) + (y % loc : Nat)) := by
      rw [← e1, ← e2]
    rw [this, hloc']; ring
  have hxR : x / loc < R := by rw [Nat.div_lt_iff_lt_mul hloc0]; rw [← hL]; exact hx
  have hyR : y / loc < R := by rw [Nat.div_lt_iff_lt_mul hloc0]; rw [← hL]; exact hyL
  rw [e4, hL] at h1
  push_cast at h1
  rw [mul_comm (R : Int)] at h1
  have h5 := Int.dvd_of_mul_dvd_mul_left (show (loc : Int) ≠ 0 by omega) h1
  obtain ⟨q, hq⟩ := h5
  have e5 : ((x / loc : Nat) : Int) - (y / loc : Nat) = R * q := by push_cast; exact hq
  generalize x / loc = a at *
  generalize y / loc = b at *
  have hq0 : q = 0 := by
    by_contra hne
    rcases (show q ≤ -1 ∨ 1 ≤ q by omega) with h | h
    · have : (R : Int) * q ≤ R * (-1) := mul_le_mul_of_nonneg_left h (by omega)
      omega
    · have : (R : Int) * 1 ≤ R * q := mul_le_mul_of_nonneg_left h (by omega)
      omega
  rw [hq0] at e5
  omega

/-- `c` is reached from `A` by the displacement `D`, on the torus -/
def Disp (g : Geo) (A c : Coords) (D : Dir → Int) : Prop := ∀ rho, (c rho : Int) = ((A rho : Int) + D rho) % g.L rho

theorem disp_lt {g : Geo} (ok : g.Ok) {A c : Coords} {D : Dir → Int} (h : Disp g A c D) (rho : Dir) : c rho < g.L rho := by
  have hp := L_pos ok rho
  have := Int.emod_lt_of_pos ((A rho : Int) + D rho) (show (0 : Int) < g.L rho by omega)
  have := h rho
  omega

theorem disp_box {g : Geo} (ok : g.Ok) {A c : Coords} (hA : ∀ rho, A rho < g.L rho) {D : Dir → Int} (h : Disp g A c D) (e : Nat) (he : 0 < e)
    (hD : ∀ rho, -(e : Int) ≤ D rho ∧ D rho ≤ e) (hl : ∀ rho, 2 * e ≤ g.loc rho) (hb : half g (locSite g c) = half g (locSite g A)) :
    rankSite g c = rankSite g A ∧ ∀ rho, (locSite g c rho : Int) = locSite g A rho + D rho := by
  have key := fun rho => step_box (g.loc rho) (g.R rho) (g.L rho) (A rho) (c rho) (D rho) e (L_eq ok rho) (hA rho)
    (hD rho) (hl rho) he (h rho) (by have := congrFun hb rho; exact this.symm)
  exact ⟨funext fun rho => (key rho).1, fun rho => (key rho).2⟩

/-- displacement in the plane of two directions -/
def dsp (mu nu : Dir) (a b : Int) : Dir → Int := fun rho => if rho = nu then b else if rho = mu then a else 0

theorem pt_disp {g : Geo} {A : Coords} (hA : ∀ rho, A rho < g.L rho) {mu nu : Dir} {a b : Nat} {da db : Int}
    (ha : (a : Int) = ((A mu : Int) + da) % g.L mu) (hb : (b : Int) = ((A nu : Int) + db) % g.L nu) :
    Disp g A (pt A mu nu a b) (dsp mu nu da db) := by
  intro rho
  simp only [pt, dsp, Function.update_apply]
  split_ifs with h1 h2
  · subst h1; exact hb
  · subst h2; exact ha
  · rw [add_zero, Int.emod_eq_of_lt (by omega) (by exact_mod_cast hA rho)]

theorem self_mod {L x : Nat} (h : x < L) : (x : Int) = ((x : Int) + 0) % L := by
  rw [add_zero, Int.emod_eq_of_lt (by omega) (by exact_mod_cast h)]

theorem up_mod (L x n : Nat) : (((x + n) % L : Nat) : Int) = ((x : Int) + n) % L := by push_cast; rfl

theorem dw_mod {L x n : Nat} (h : n ≤ L) : (((x + L - n) % L : Nat) : Int) = ((x : Int) + (-(n : Int))) % L := by
  rw [Int.natCast_mod, Nat.cast_sub (by omega)]
  push_cast
  rw [show (x : Int) + L - n = (x + -(n : Int)) + L by ring, Int.add_emod_right]

theorem perp_ne {mu nu : Dir} (h : nu ∈ Geo.perpDirs mu) : nu ≠ mu := by
  revert h; revert mu nu; decide

theorem sum_dsp {mu nu : Dir} (h : nu ≠ mu) (a b : Int) : dsp mu nu a b 0 + dsp mu nu a b 1 + dsp mu nu a b 2 + dsp mu nu a b 3 = a + b := by
  revert h
  fin_cases mu <;> fin_cases nu <;> simp [dsp] <;> omega

theorem wsum_dsp {mu nu : Dir} (h : nu ≠ mu) (a b : Int) : (if (0 : Dir) = mu then 2 else 1) * dsp mu nu a b 0 +
    (if (1 : Dir) = mu then 2 else 1) * dsp mu nu a b 1 + (if (2 : Dir) = mu then 2 else 1) * dsp mu nu a b 2 +
    (if (3 : Dir) = mu then 2 else 1) * dsp mu nu a b 3 = 2 * a + b := by
  revert h
  fin_cases mu <;> fin_cases nu <;> simp [dsp] <;> omega

/-- the links of the Wilson staples, with their displacements -/
theorem wilson_disp {g : Geo} (ok : g.Ok) (h2 : ∀ rho, 2 ≤ g.loc rho) {A : Coords} (hA : ∀ rho, A rho < g.L rho) {mu nu : Dir}
    {l : Coords × Dir} (h : l ∈ wilsonLinksNu g.L A mu nu) (hn : nu ≠ mu) :
    ∃ a b : Int, Disp g A l.1 (dsp mu nu a b) ∧ (-1 ≤ a ∧ a ≤ 1) ∧ (-1 ≤ b ∧ b ≤ 1) ∧ (l.2 = mu → (a + b) % 2 ≠ 0) := by
  have hL : ∀ rho, 1 ≤ g.L rho := fun rho => L_pos ok rho
  have s0 := self_mod (hA mu)
  have t0 := self_mod (hA nu)
  have u1 := up_mod (g.L mu) (A mu) 1
  have u2 := up_mod (g.L nu) (A nu) 1
  have w2 := dw_mod (x := A nu) (hL nu)
  have eA : A = pt A mu nu (A mu) (A nu) := by funext rho; simp [pt, Function.update_eq_self]
  simp only [wilsonLinksNu, List.mem_cons, List.not_mem_nil, or_false] at h
  rcases h with rfl | rfl | rfl | rfl | rfl | rfl
  · exact ⟨0, _, pt_disp hA s0 w2, by norm_num, by norm_num, fun h => absurd h hn⟩
  · exact ⟨0, _, pt_disp hA s0 w2, by norm_num, by norm_num, fun _ => by norm_num⟩
  · exact ⟨_, _, pt_disp hA u1 w2, by norm_num, by norm_num, fun h => absurd h hn⟩
  · exact ⟨0, 0, by rw [show (A, nu).1 = pt A mu nu (A mu) (A nu) from eA]; exact pt_disp hA s0 t0, by norm_num, by norm_num, fun h => absurd h hn⟩
  · exact ⟨0, _, pt_disp hA s0 u2, by norm_num, by norm_num, fun _ => by norm_num⟩
  · exact ⟨_, 0, pt_disp hA u1 t0, by norm_num, by norm_num, fun h => absurd h hn⟩

/-- The links used to compute the Wilson staples of a link are inside the lattice; those of other ranks belong to a different
box, hence are not modified while the box is treated, and none of them belongs to the set (box, direction and parity) of the
link: the links of a set can be updated in any order, or at the same time. -/
theorem C70_wilson_independent (g : Geo) (ok : g.Ok) (h2 : ∀ mu, 2 ≤ g.loc mu) (A : Coords) (hA : ∀ rho, A rho < g.L rho) (mu : Dir)
    (c : Coords) (d : Dir) (h : (c, d) ∈ wilsonLinks g.L A mu) :
    (∀ rho, c rho < g.L rho) ∧
    (rankSite g c ≠ rankSite g A → half g (locSite g c) ≠ half g (locSite g A)) ∧
    ¬ (d = mu ∧ half g (locSite g c) = half g (locSite g A) ∧ Wilson_par (locSite g c) mu = Wilson_par (locSite g A) mu) := by
  obtain ⟨nu, hnu, hm⟩ := List.mem_flatMap.1 h
  obtain ⟨a, b, hd, ha, hb, hpar⟩ := wilson_disp ok h2 hA hm (perp_ne hnu)
  have hD : ∀ rho, -((1 : Nat) : Int) ≤ dsp mu nu a b rho ∧ dsp mu nu a b rho ≤ (1 : Nat) := by
    intro rho; simp only [dsp]; push_cast; split_ifs <;> omega
  refine ⟨disp_lt ok hd, ?_, ?_⟩
  · intro hr he
    exact hr (disp_box ok hA hd 1 (by norm_num) hD (by simpa using h2) he).1
  · rintro ⟨rfl, he, hp⟩
    obtain ⟨_, hl⟩ := disp_box ok hA hd 1 (by norm_num) hD (by simpa using h2) he
    have := hpar rfl
    have hs := sum_dsp (perp_ne hnu) a b
    simp only [Wilson_par, dirs, List.foldl_cons, List.foldl_nil, hl] at hp
    omega

/-- the links of the Symanzik staples, with their displacements -/
theorem symanzik_disp {g : Geo} (ok : g.Ok) (h4 : ∀ rho, 4 ≤ g.loc rho) {A : Coords} (hA : ∀ rho, A rho < g.L rho) {mu nu : Dir}
    {l : Coords × Dir} (h : l ∈ symanzikLinksNu g.L A mu nu) (hn : nu ≠ mu) :
    ∃ a b : Int, Disp g A l.1 (dsp mu nu a b) ∧ (-2 ≤ a ∧ a ≤ 2) ∧ (-2 ≤ b ∧ b ≤ 2) ∧ (l.2 = mu → (2 * a + b) % 4 ≠ 0) := by
  have hL : ∀ rho, 4 ≤ g.L rho := fun rho => by
    have h1 := h4 rho
    have h3 := ok.R_pos rho
    have := L_eq ok rho
    nlinarith
  have s0 := self_mod (hA mu)
  have t0 := self_mod (hA nu)
  have u1 := up_mod (g.L mu) (A mu) 1
  have u3 := up_mod (g.L mu) (A mu) 2
  have v1 := dw_mod (x := A mu) (show 1 ≤ g.L mu by have := hL mu; omega)
  have u2 := up_mod (g.L nu) (A nu) 1
  have u4 := up_mod (g.L nu) (A nu) 2
  have w4 := dw_mod (x := A nu) (show 2 ≤ g.L nu by have := hL nu; omega)
  have w2 : ((((A nu + g.L nu - 2) % g.L nu + 1) % g.L nu : Nat) : Int) = ((A nu : Int) + (-1)) % g.L nu := by
    rw [up_mod, w4]
    push_cast
    rw [Int.emod_add_emod]
    congr 1
    ring
  have eA : A = pt A mu nu (A mu) (A nu) := by funext rho; simp [pt, Function.update_eq_self]
  simp only [symanzikLinksNu, List.mem_cons, List.not_mem_nil, or_false] at h
  have cA : Disp g A A (dsp mu nu 0 0) := by conv => arg 3; rw [eA]
                                             exact pt_disp hA s0 t0
  have cK := pt_disp hA v1 w2
  have cL := pt_disp hA v1 t0
  have cM := pt_disp hA v1 u2
  have cI := pt_disp hA s0 w4
  have cJ := pt_disp hA s0 w2
  have cB := pt_disp hA s0 u2
  have cC := pt_disp hA s0 u4
  have cE := pt_disp hA u1 u2
  have cF := pt_disp hA u1 t0
  have cG := pt_disp hA u1 w2
  have cH := pt_disp hA u1 w4
  have cO := pt_disp hA u3 t0
  have cP := pt_disp hA u3 w2
  push_cast at cK cL cM cI cJ cB cC cE cF cG cH cO cP
  rcases h with rfl | rfl | rfl | rfl | rfl | rfl | rfl | rfl | rfl | rfl | rfl | rfl | rfl | rfl | rfl | rfl | rfl | rfl | rfl | rfl | rfl |
    rfl | rfl | rfl | rfl | rfl | rfl | rfl
  all_goals first
    | exact ⟨_, _, cA, by norm_num, by norm_num, fun h => absurd h hn⟩
    | exact ⟨_, _, cK, by norm_num, by norm_num, fun h => absurd h hn⟩
    | exact ⟨_, _, cK, by norm_num, by norm_num, fun _ => by norm_num⟩
    | exact ⟨_, _, cL, by norm_num, by norm_num, fun h => absurd h hn⟩
    | exact ⟨_, _, cM, by norm_num, by norm_num, fun _ => by norm_num⟩
    | exact ⟨_, _, cI, by norm_num, by norm_num, fun h => absurd h hn⟩
    | exact ⟨_, _, cI, by norm_num, by norm_num, fun _ => by norm_num⟩
    | exact ⟨_, _, cJ, by norm_num, by norm_num, fun h => absurd h hn⟩
    | exact ⟨_, _, cJ, by norm_num, by norm_num, fun _ => by norm_num⟩
    | exact ⟨_, _, cB, by norm_num, by norm_num, fun h => absurd h hn⟩
    | exact ⟨_, _, cB, by norm_num, by norm_num, fun _ => by norm_num⟩
    | exact ⟨_, _, cC, by norm_num, by norm_num, fun _ => by norm_num⟩
    | exact ⟨_, _, cE, by norm_num, by norm_num, fun h => absurd h hn⟩
    | exact ⟨_, _, cE, by norm_num, by norm_num, fun _ => by norm_num⟩
    | exact ⟨_, _, cF, by norm_num, by norm_num, fun h => absurd h hn⟩
    | exact ⟨_, _, cG, by norm_num, by norm_num, fun h => absurd h hn⟩
    | exact ⟨_, _, cG, by norm_num, by norm_num, fun _ => by norm_num⟩
    | exact ⟨_, _, cH, by norm_num, by norm_num, fun h => absurd h hn⟩
    | exact ⟨_, _, cO, by norm_num, by norm_num, fun h => absurd h hn⟩
    | exact ⟨_, _, cP, by norm_num, by norm_num, fun h => absurd h hn⟩

/-- The same for the Symanzik actions, with the parity used for them, if the local lattice has at least four sites in every
direction (as the program checks). -/
theorem C70_symanzik_independent (g : Geo) (ok : g.Ok) (h4 : ∀ mu, 4 ≤ g.loc mu) (A : Coords) (hA : ∀ rho, A rho < g.L rho) (mu : Dir)
    (c : Coords) (d : Dir) (h : (c, d) ∈ symanzikLinks g.L A mu) :
    (∀ rho, c rho < g.L rho) ∧
    (rankSite g c ≠ rankSite g A → half g (locSite g c) ≠ half g (locSite g A)) ∧
    ¬ (d = mu ∧ half g (locSite g c) = half g (locSite g A) ∧ Symanzik_par (locSite g c) mu = Symanzik_par (locSite g A) mu) := by
  have main : ∃ (nu : Dir) (a b : Int), nu ≠ mu ∧ Disp g A c (dsp mu nu a b) ∧ (-2 ≤ a ∧ a ≤ 2) ∧ (-2 ≤ b ∧ b ≤ 2) ∧
      (d = mu → (2 * a + b) % 4 ≠ 0) := by
    rcases List.mem_append.1 h with h | h
    · obtain ⟨nu, hnu, hm⟩ := List.mem_flatMap.1 h
      obtain ⟨a, b, hd, ha, hb, hpar⟩ := symanzik_disp ok h4 hA hm (perp_ne hnu)
      exact ⟨nu, a, b, perp_ne hnu, hd, ha, hb, hpar⟩
    · obtain ⟨nu, hnu⟩ : ∃ nu : Dir, nu ≠ mu := exists_ne mu
      have hL : 1 ≤ g.L mu := L_pos ok mu
      have e : ∀ a : Nat, Function.update A mu a = pt A mu nu a (A nu) := by
        intro a
        have : A nu = Function.update A mu a nu := by rw [Function.update_of_ne hnu]
        unfold pt
        rw [this]
        simp
      simp only [List.mem_cons, List.not_mem_nil, or_false, Prod.mk.injEq] at h
      rcases h with ⟨rfl, rfl⟩ | ⟨rfl, rfl⟩
      · exact ⟨nu, _, 0, hnu, by rw [e]; exact pt_disp hA (up_mod _ _ 1) (self_mod (hA nu)), by norm_num, by norm_num, fun _ => by norm_num⟩
      · exact ⟨nu, _, 0, hnu, by rw [e]; exact pt_disp hA (dw_mod hL) (self_mod (hA nu)), by norm_num, by norm_num, fun _ => by norm_num⟩
  obtain ⟨nu, a, b, hn, hd, ha, hb, hpar⟩ := main
  have hD : ∀ rho, -((2 : Nat) : Int) ≤ dsp mu nu a b rho ∧ dsp mu nu a b rho ≤ (2 : Nat) := by
    intro rho; simp only [dsp]; push_cast; split_ifs <;> omega
  refine ⟨disp_lt ok hd, ?_, ?_⟩
  · intro hr he
    exact hr (disp_box ok hA hd 2 (by norm_num) hD (by simpa using h4) he).1
  · rintro ⟨hdm, he, hp⟩
    obtain ⟨_, hl⟩ := disp_box ok hA hd 2 (by norm_num) hD (by simpa using h4) he
    have hne := hpar hdm
    have hs := wsum_dsp hn a b
    simp only [Symanzik_par, dirs, List.foldl_cons, List.foldl_nil, hl, mul_add] at hp
    omega

/-- a case: a link on the border of the rank, on the lattice 8x4x4x6 divided in 2x1x1x1; the backward neighbour is on another rank -/
example : ((Function.update (fun _ => 0) 0 7 : Coords), (1 : Dir)) ∈ symanzikLinks (![8, 4, 4, 6]) (fun _ => 0) 1 ∧
    rankSite ⟨![8, 4, 4, 6], ![2, 1, 1, 1]⟩ (Function.update (fun _ => 0) 0 7) ≠ rankSite ⟨![8, 4, 4, 6], ![2, 1, 1, 1]⟩ (fun _ => 0) := by
  decide +kernel

end Nissa.Sweep
