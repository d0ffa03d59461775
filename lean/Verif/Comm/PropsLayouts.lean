/- C25 (one direction made local) and C35 (ILDG order of the fields in the files). -/
import Verif.Comm.Layouts
set_option linter.all false

namespace Nissa.Layouts
open Nissa.Lx Nissa.A2A

/-! ### Specification -/

/-- the field `res` distributed on the ranks of `g` in the usual way represents the global field `phi` -/
def Represents {α : Type} (g : Geo) (X : Nat → Nat → Coords) (phi : Coords → α) (f : Nat → Nat → α) : Prop :=
  ∀ r i, r < g.nranks → i < g.locVol → f r i = phi (X r i)

/-- all the lists of a remapping of `locVol` elements are such that the local copy reads the right count -/
def CopyOk (g : Geo) (idx : Nat → Nat → Nat × Nat) : Prop := ∀ r, r < g.nranks → SelfCopyOk g.nranks (remapList g.nranks (fun _ => g.locVol) idx) r

theorem block_run {α : Type} (g : Geo) (ok : g.Ok) (idx inv : Nat → Nat → Nat × Nat) (h : Bij g.nranks (fun _ => g.locVol) (fun _ => g.locVol) idx inv) (hs : CopyOk g idx)
    (inp : Nat → Nat → α) (junk : Nat → Nat) (junk' : Nat → α) (order : Nat → List Nat) (ho : ∀ r, r < g.nranks → (order r).Perm (List.range g.locVol)) (out : Nat → Nat → α) :
    (∃ res, RunsTo g.nranks (remapList g.nranks (fun _ => g.locVol) idx) junk junk' order inp out res) ∧
    ∀ res, RunsTo g.nranks (remapList g.nranks (fun _ => g.locVol) idx) junk junk' order inp out res →
      (∀ r i, r < g.nranks → i < g.locVol → res (idx r i).1 (idx r i).2 = inp r i) ∧
      (∀ r i, r < g.nranks → i < g.locVol → res r i = inp (inv r i).1 (inv r i).2) := by
  obtain ⟨h1, h2⟩ := remap_deliver (nranks_pos g ok) h hs junk junk' order ho inp out
  refine ⟨h1, fun res hres => ⟨(h2 res hres).1, fun r i hr hi => ?_⟩⟩
  obtain ⟨a, b⟩ := h.from_lt r i hr hi
  have := (h2 res hres).1 _ _ a b
  rwa [h.right r i hr hi] at this

/-! ### ILDG -/

/-- place of a site in a file: x runs faster, then y, z, t, with t the direction 0 and x, y, z the directions 1, 2, 3 -/
def filePlace (L c : Coords) : Nat := ((c 0 * L 3 + c 3) * L 2 + c 2) * L 1 + c 1

theorem filePlace_eq (L c : Coords) : ildgOfCoords L c = filePlace L c := by
  simp [ildgOfCoords, mix, scidacMapping, filePlace]

/-- C35: what is written by the ranks, one after the other, has the sites at the right place of the file, whatever the decomposition -/
theorem C35_write_partial {α : Type} (g : Geo) (ok : g.Ok) (X : Nat → Nat → Coords) (hX : CoordTable g X) (hs : CopyOk g (indexToIldg g X))
    (phi : Coords → α) (f : Nat → Nat → α) (hf : Represents g X phi f)
    (junk : Nat → Nat) (junk' : Nat → α) (order : Nat → List Nat) (ho : ∀ r, r < g.nranks → (order r).Perm (List.range g.locVol)) (out : Nat → Nat → α) :
    (∃ temp, RunsTo g.nranks (remapList g.nranks (fun _ => g.locVol) (indexToIldg g X)) junk junk' order f out temp) ∧
    ∀ temp, RunsTo g.nranks (remapList g.nranks (fun _ => g.locVol) (indexToIldg g X)) junk junk' order f out temp →
      ∀ c, (∀ mu, c mu < g.L mu) → temp (filePlace g.L c / g.locVol) (filePlace g.L c % g.locVol) = phi c := by
  obtain ⟨h1, h2⟩ := block_run g ok _ _ (block_bij g ok X hX _ _ (ildg_order g.L (L_pos ok))) hs f junk junk' order ho out
  refine ⟨h1, fun res hres c hc => ?_⟩
  replace h2 := (h2 res hres).1
  obtain ⟨a, b, -⟩ := C02_rank_and_loclx g ok c hc
  have := h2 _ _ a b
  rw [hf _ _ a b, coordTable_at g ok X hX c hc] at this
  rw [← filePlace_eq]; exact this

/-- C35: each rank, reading its consecutive piece of a file and remapping it, gets the sites it hosts from the right place of the file -/
theorem C35_read_partial {α : Type} (g : Geo) (ok : g.Ok) (X : Nat → Nat → Coords) (hX : CoordTable g X) (hs : CopyOk g (indexFromIldg g))
    (file : Nat → α) (junk : Nat → Nat) (junk' : Nat → α) (order : Nat → List Nat) (ho : ∀ r, r < g.nranks → (order r).Perm (List.range g.locVol)) (out : Nat → Nat → α) :
    (∃ f, RunsTo g.nranks (remapList g.nranks (fun _ => g.locVol) (indexFromIldg g)) junk junk' order (fun r i => file (r * g.locVol + i)) out f) ∧
    ∀ f, RunsTo g.nranks (remapList g.nranks (fun _ => g.locVol) (indexFromIldg g)) junk junk' order (fun r i => file (r * g.locVol + i)) out f →
      Represents g X (fun c => file (filePlace g.L c)) f := by
  obtain ⟨h1, h2⟩ := block_run g ok _ _ (block_bij g ok X hX _ _ (ildg_order g.L (L_pos ok))).symm hs (fun r i => file (r * g.locVol + i)) junk junk' order ho out
  refine ⟨h1, fun res hres r i hr hi => ?_⟩
  rw [(h2 res hres).2 r i hr hi]
  simp only
  rw [Nat.div_add_mod', filePlace_eq]

/-- the file written by the ranks: each writes `locVol` sites starting from `rank*locVol`, ILDG_File.hpp:186-202 -/
def fileOf {α : Type} (locVol : Nat) (temp : Nat → Nat → α) (p : Nat) : α := temp (p / locVol) (p % locVol)

/-- C35: a field written with a decomposition of the lattice is read back, with any other decomposition, as the same field -/
theorem C35_roundtrip_partial {α : Type} (g g' : Geo) (ok : g.Ok) (ok' : g'.Ok) (hL : g.L = g'.L) (X X' : Nat → Nat → Coords) (hX : CoordTable g X) (hX' : CoordTable g' X')
    (hs : CopyOk g (indexToIldg g X)) (hs' : CopyOk g' (indexFromIldg g')) (phi : Coords → α) (f : Nat → Nat → α) (hf : Represents g X phi f)
    (junk : Nat → Nat) (junk' : Nat → α) (order : Nat → List Nat) (ho : ∀ r, r < g.nranks → (order r).Perm (List.range g.locVol)) (out : Nat → Nat → α)
    (order' : Nat → List Nat) (ho' : ∀ r, r < g'.nranks → (order' r).Perm (List.range g'.locVol)) (out' : Nat → Nat → α) :
    (∃ temp f', RunsTo g.nranks (remapList g.nranks (fun _ => g.locVol) (indexToIldg g X)) junk junk' order f out temp ∧
      RunsTo g'.nranks (remapList g'.nranks (fun _ => g'.locVol) (indexFromIldg g')) junk junk' order' (fun r i => fileOf g.locVol temp (r * g'.locVol + i)) out' f') ∧
    ∀ temp f', RunsTo g.nranks (remapList g.nranks (fun _ => g.locVol) (indexToIldg g X)) junk junk' order f out temp →
      RunsTo g'.nranks (remapList g'.nranks (fun _ => g'.locVol) (indexFromIldg g')) junk junk' order' (fun r i => fileOf g.locVol temp (r * g'.locVol + i)) out' f' →
      Represents g' X' phi f' := by
  obtain ⟨⟨temp, h1⟩, h2⟩ := C35_write_partial g ok X hX hs phi f hf junk junk' order ho out
  refine ⟨⟨temp, ?_⟩, fun temp f' ht hf' r i hr hi => ?_⟩
  · obtain ⟨⟨f', h3⟩, -⟩ := C35_read_partial g' ok' X' hX' hs' (fileOf g.locVol temp) junk junk' order' ho' out'
    exact ⟨f', h1, h3⟩
  rw [(C35_read_partial g' ok' X' hX' hs' (fileOf g.locVol temp) junk junk' order' ho' out').2 f' hf' r i hr hi]
  obtain ⟨hc, -⟩ := coordTable_of g' ok' X' hX' r i hr hi
  show temp _ _ = _
  rw [← hL] at hc ⊢
  exact h2 temp ht _ hc

/-- C35: the conditions on the local copy are met when only the time is divided among the ranks -/
theorem C35_time_slabs (g : Geo) (ok : g.Ok) (X : Nat → Nat → Coords) (hX : CoordTable g X) (hR : ∀ nu, nu ≠ 0 → g.R nu = 1) :
    CopyOk g (indexToIldg g X) ∧ CopyOk g (indexFromIldg g) := by
  have hb := block_bij g ok X hX _ _ (ildg_order g.L (L_pos ok))
  have hself : ∀ r i, r < g.nranks → i < g.locVol → (indexToIldg g X r i).1 = r := by
    intro r i hr hi
    obtain ⟨h1, h2⟩ := coordTable_of g ok X hX r i hr hi
    show ildgOfCoords g.L (X r i) / g.locVol = r
    rw [show ildgOfCoords g.L (X r i) = mix (0 :: [3, 2, 1]) g.L (X r i) from rfl, slab_local g ok 0 [3, 2, 1] (by decide) hR _ h1, h2]
  refine ⟨fun r hr => self_ok hb hself r hr, fun r hr => self_ok hb.symm (fun r i hr hi => ?_) r hr⟩
  obtain ⟨a, b⟩ := hb.from_lt r i hr hi
  have h1 := hself _ _ a b
  have h2 := hb.right r i hr hi
  have h3 : (indexToIldg g X (getLoclxAndRankOfCoords g (coordsOfIldg g.L (r * g.locVol + i))).1 (getLoclxAndRankOfCoords g (coordsOfIldg g.L (r * g.locVol + i))).2) = (r, i) := h2
  rw [h3] at h1
  exact h1.symm

/-! ### One direction local -/

/-- the sites orthogonal to `mu` are equally divided among the ranks -/
def PerpDivides (g : Geo) (mu : Dir) : Prop := g.nranks ∣ g.glbVol / g.L mu

theorem perp_perm (mu : Dir) : (perp mu ++ [mu]).Perm dirs := by revert mu; decide

theorem perp_nodup (mu : Dir) : (perp mu).reverse.Nodup := by revert mu; decide

theorem mix_append (ds : List Dir) (mu : Dir) (L c : Coords) : mix (ds ++ [mu]) L c = mix ds L c * L mu + c mu := by
  unfold mix; rw [List.foldl_append]; rfl

theorem vol_perp (g : Geo) (mu : Dir) (hL : 0 < g.L mu) : g.glbVol / g.L mu = volR (perp mu).reverse g.L ∧ g.glbVol = volR (perp mu).reverse g.L * g.L mu := by
  have : g.glbVol = volR (perp mu).reverse g.L * g.L mu := by
    unfold Geo.glbVol
    rw [volOfLx_eq, volR_perm g.L ((List.reverse_perm dirs).trans ((perp_perm mu).symm.trans (List.reverse_perm _).symm)), List.reverse_append]
    rfl
  exact ⟨by rw [this, Nat.mul_div_cancel _ hL], this⟩

theorem maxPerp_eq (g : Geo) (ok : g.Ok) (mu : Dir) (h : PerpDivides g mu) : maxPerp g mu * g.L mu = g.locVol ∧ g.glbVol / g.L mu = g.nranks * maxPerp g mu := by
  have hN := nranks_pos g ok
  obtain ⟨k, hk⟩ := h
  have hm : maxPerp g mu = k := by
    unfold maxPerp
    rw [hk, show g.nranks * k + g.nranks - 1 = (g.nranks - 1) + g.nranks * k by omega, Nat.add_mul_div_left _ _ hN, Nat.div_eq_of_lt (by omega), Nat.zero_add]
  refine ⟨?_, by rw [hm]; exact hk⟩
  have h1 := (vol_perp g mu (L_pos ok mu))
  have h2 := glbVol_eq g ok
  rw [h1.2, ← h1.1, hk] at h2
  rw [hm]
  exact Nat.eq_of_mul_eq_mul_left hN (by rw [← h2]; ring)

theorem locd_order (g : Geo) (ok : g.Ok) (mu : Dir) : Order g.L (fun c => mix (perp mu) g.L c * g.L mu + c mu)
    (fun i => ((perp mu ++ [mu]).reverse.foldl (coordStep g.L) (fun _ => 0, i)).1) := by
  have := order_of_perm g.L (L_pos ok) _ (perp_perm mu)
  rwa [show mix (perp mu ++ [mu]) g.L = fun c => mix (perp mu) g.L c * g.L mu + c mu from funext (fun c => mix_append _ _ _ _)] at this

/-- when the orthogonal sites are equally divided the two index functions are those of a division in consecutive pieces -/
theorem maker_eq (g : Geo) (ok : g.Ok) (X : Nat → Nat → Coords) (mu : Dir) (h : PerpDivides g mu) (r i : Nat) (hlt : X r i mu < g.L mu) :
    locDirMaker g X mu r i = ((mix (perp mu) g.L (X r i) * g.L mu + X r i mu) / g.locVol, (mix (perp mu) g.L (X r i) * g.L mu + X r i mu) % g.locVol) := by
  have hL := L_pos ok mu
  obtain ⟨h1, -⟩ := maxPerp_eq g ok mu h
  have hd : (mix (perp mu) g.L (X r i) * g.L mu + X r i mu) / g.L mu = mix (perp mu) g.L (X r i) := (entry_rank hlt).2
  have hq : (mix (perp mu) g.L (X r i) * g.L mu + X r i mu) / g.locVol = mix (perp mu) g.L (X r i) / maxPerp g mu := by
    rw [← h1, Nat.mul_comm (maxPerp g mu), ← Nat.div_div_eq_div_mul, hd]
  show (_, _) = _
  refine Prod.ext hq.symm ?_
  show (mix (perp mu) g.L (X r i) - mix (perp mu) g.L (X r i) / maxPerp g mu * maxPerp g mu) * g.L mu + X r i mu = _
  rw [Nat.mod_eq_sub_div_mul, hq, ← h1, Nat.sub_mul]
  have : mix (perp mu) g.L (X r i) / maxPerp g mu * maxPerp g mu ≤ mix (perp mu) g.L (X r i) := Nat.div_mul_le_self _ _
  have := Nat.mul_le_mul_right (g.L mu) this
  rw [Nat.mul_assoc] at this ⊢
  omega

theorem unmaker_eq (g : Geo) (ok : g.Ok) (mu : Dir) (h : PerpDivides g mu) (r i : Nat) :
    locDirUnmaker g mu r i = getLoclxAndRankOfCoords g (((perp mu ++ [mu]).reverse.foldl (coordStep g.L) (fun _ => 0, r * g.locVol + i)).1) := by
  have hL := L_pos ok mu
  obtain ⟨h1, -⟩ := maxPerp_eq g ok mu h
  unfold locDirUnmaker
  simp only
  rw [List.reverse_append, List.reverse_singleton, List.singleton_append, List.foldl_cons]
  have e : r * g.locVol + i = i + g.L mu * (r * maxPerp g mu) := by rw [← h1]; ring
  have e1 : (r * g.locVol + i) % g.L mu = i % g.L mu := by rw [e, Nat.add_mul_mod_self_left]
  have e2 : (r * g.locVol + i) / g.L mu = i / g.L mu + r * maxPerp g mu := by rw [e, Nat.add_mul_div_left _ _ hL]
  show _ = getLoclxAndRankOfCoords g ((perp mu).reverse.foldl (coordStep g.L) (Function.update (fun _ => 0) mu ((r * g.locVol + i) % g.L mu), (r * g.locVol + i) / g.L mu)).1
  rw [e1, e2]

theorem bij_congr {N : Nat} {n m : Nat → Nat} {idx idx' inv inv' : Nat → Nat → Nat × Nat} (h : Bij N n m idx inv)
    (h1 : ∀ r i, r < N → i < n r → idx' r i = idx r i) (h2 : ∀ r i, r < N → i < m r → inv' r i = inv r i) : Bij N n m idx' inv' := by
  refine ⟨fun r i hr hi => ?_, fun r i hr hi => ?_, fun r i hr hi => ?_, fun r i hr hi => ?_⟩
  · rw [h1 r i hr hi]; exact h.to_lt r i hr hi
  · rw [h2 r i hr hi]; exact h.from_lt r i hr hi
  · have := h.to_lt r i hr hi
    rw [h1 r i hr hi, h2 _ _ this.1 this.2]; exact h.left r i hr hi
  · have := h.from_lt r i hr hi
    rw [h2 r i hr hi, h1 _ _ this.1 this.2]; exact h.right r i hr hi

theorem locd_bij (g : Geo) (ok : g.Ok) (X : Nat → Nat → Coords) (hX : CoordTable g X) (mu : Dir) (h : PerpDivides g mu) :
    Bij g.nranks (fun _ => g.locVol) (fun _ => g.locVol) (locDirMaker g X mu) (locDirUnmaker g mu) :=
  bij_congr (block_bij g ok X hX _ _ (locd_order g ok mu)) (fun r i hr hi => maker_eq g ok X mu h r i ((coordTable_of g ok X hX r i hr hi).1 mu))
    (fun r i _ _ => unmaker_eq g ok mu h r i)

theorem locdSize_eq (g : Geo) (ok : g.Ok) (mu : Dir) (h : PerpDivides g mu) (r : Nat) (hr : r < g.nranks) : locdSize g mu r = g.locVol ∧ perpSize g mu r = maxPerp g mu := by
  obtain ⟨m1, m2⟩ := maxPerp_eq g ok mu h
  unfold locdSize perpSize
  have : maxPerp g mu + maxPerp g mu * r ≤ g.glbVol / g.L mu := by
    rw [m2]
    calc maxPerp g mu + maxPerp g mu * r = (r + 1) * maxPerp g mu := by ring
      _ ≤ _ := Nat.mul_le_mul_right _ hr
  rw [min_eq_left (by omega), ← m1]; push_cast; exact ⟨rfl, rfl⟩

/-- the runs depend only on the lists of the existing ranks -/
theorem unmaker_runs {α : Type} (g : Geo) (ok : g.Ok) (mu : Dir) (h : PerpDivides g mu) (junk : Nat → Nat) (junk' : Nat → α) (order : Nat → List Nat) (inp out res : Nat → Nat → α) :
    RunsTo g.nranks (remapList g.nranks (fun r => (locdSize g mu r).toNat) (locDirUnmaker g mu)) junk junk' order inp out res ↔
    RunsTo g.nranks (remapList g.nranks (fun _ => g.locVol) (locDirUnmaker g mu)) junk junk' order inp out res := by
  have hl : ∀ r, r < g.nranks → remapList g.nranks (fun r => (locdSize g mu r).toNat) (locDirUnmaker g mu) r = remapList g.nranks (fun _ => g.locVol) (locDirUnmaker g mu) r := by
    intro r hr
    unfold remapList
    beta_reduce
    rw [(locdSize_eq g ok mu h r hr).1]; rfl
  have := fun r (hr : r < g.nranks) => setup_congr g.nranks _ _ hl junk r hr
  constructor
  · rintro ⟨C, h1, h2⟩; exact ⟨C, fun r hr => (this r hr).symm.trans (h1 r hr), h2⟩
  · rintro ⟨C, h1, h2⟩; exact ⟨C, fun r hr => (this r hr).trans (h1 r hr), h2⟩

/-- C25: in the layout with the direction `mu` local, each rank has `locVol` elements: `L mu` consecutive elements, in order, for each of
the orthogonal sites given to it; each site of the lattice is there -/
theorem C25_lx_to_locd_partial {α : Type} (g : Geo) (ok : g.Ok) (X : Nat → Nat → Coords) (hX : CoordTable g X) (mu : Dir) (h : PerpDivides g mu) (hs : CopyOk g (locDirMaker g X mu))
    (phi : Coords → α) (f : Nat → Nat → α) (hf : Represents g X phi f)
    (junk : Nat → Nat) (junk' : Nat → α) (order : Nat → List Nat) (ho : ∀ r, r < g.nranks → (order r).Perm (List.range g.locVol)) (out : Nat → Nat → α) :
    (∃ res, RunsTo g.nranks (remapList g.nranks (fun _ => g.locVol) (locDirMaker g X mu)) junk junk' order f out res) ∧
      (∀ r, r < g.nranks → locdSize g mu r = g.locVol) ∧
      ∀ res, RunsTo g.nranks (remapList g.nranks (fun _ => g.locVol) (locDirMaker g X mu)) junk junk' order f out res →
      ∀ r k, r < g.nranks → k < maxPerp g mu → ∃ c : Coords, (∀ nu, c nu < g.L nu) ∧ mix (perp mu) g.L c = r * maxPerp g mu + k ∧
        ∀ x, x < g.L mu → res r (k * g.L mu + x) = phi (Function.update c mu x) := by
  obtain ⟨h1, h2⟩ := block_run g ok _ _ (locd_bij g ok X hX mu h) hs f junk junk' order ho out
  obtain ⟨m1, m2⟩ := maxPerp_eq g ok mu h
  have hL := L_pos ok
  refine ⟨h1, fun r hr => ?_, fun res hres r k hr hk => ?_⟩
  · unfold locdSize perpSize
    have : maxPerp g mu + maxPerp g mu * r ≤ g.glbVol / g.L mu := by
      rw [m2]
      calc maxPerp g mu + maxPerp g mu * r = (r + 1) * maxPerp g mu := by ring
        _ ≤ _ := Nat.mul_le_mul_right _ hr
    rw [min_eq_left (by omega), ← m1]; push_cast; rfl
  · have hp : r * maxPerp g mu + k < volR (perp mu).reverse g.L := by
      rw [← (vol_perp g mu (hL mu)).1, m2]
      calc r * maxPerp g mu + k < r * maxPerp g mu + maxPerp g mu := by omega
        _ = (r + 1) * maxPerp g mu := by ring
        _ ≤ _ := Nat.mul_le_mul_right _ hr
    have hn : (perp mu).reverse.Nodup := perp_nodup mu
    obtain ⟨b1, b2, b3⟩ := coordFold_spec g.L (perp mu).reverse hn (fun _ => 0) _ (fun d _ => hL d) hp
    have hmem : ∀ nu, nu ≠ mu → nu ∈ (perp mu).reverse := fun nu hne => by
      rw [List.mem_reverse]; unfold perp; rw [List.mem_filter]; exact ⟨mem_dirs nu, by simpa using hne⟩
    have hnot : mu ∉ (perp mu).reverse := by rw [List.mem_reverse]; unfold perp; rw [List.mem_filter]; simp
    generalize hc : ((perp mu).reverse.foldl (coordStep g.L) (fun _ => 0, r * maxPerp g mu + k)).1 = c at b1 b2 b3
    have hcl : ∀ nu, c nu < g.L nu := fun nu => by
      by_cases hne : nu = mu
      · rw [hne, b3 mu hnot]; exact hL mu
      · exact b1 nu (hmem nu hne)
    refine ⟨c, hcl, by rw [mix_eq_mixR]; exact b2, fun x hx => ?_⟩
    have hcu : ∀ nu, (Function.update c mu x) nu < g.L nu := fun nu => by
      by_cases hne : nu = mu
      · subst hne; rw [Function.update_self]; exact hx
      · rw [Function.update_of_ne hne]; exact hcl nu
    have hmix : mix (perp mu) g.L (Function.update c mu x) = r * maxPerp g mu + k := by
      rw [mix_eq_mixR, ← b2]
      exact mixR_congr (fun d hd => Function.update_of_ne (fun hh : d = mu => hnot (by subst hh; exact hd)) _ _)
    obtain ⟨a1, a2, -⟩ := C02_rank_and_loclx g ok _ hcu
    have := (h2 res hres).1 _ _ a1 a2
    rw [hf _ _ a1 a2, coordTable_at g ok X hX _ hcu] at this
    have hm : locDirMaker g X mu (getLoclxAndRankOfCoords g (Function.update c mu x)).1 (getLoclxAndRankOfCoords g (Function.update c mu x)).2 = (r, k * g.L mu + x) := by
      unfold locDirMaker
      simp only
      rw [coordTable_at g ok X hX _ hcu, hmix, Function.update_self, (entry_rank hk).2, Nat.add_sub_cancel_left]
    rw [hm] at this
    exact this

/-- C25: going to the layout with a direction local and back, everything returns to its place -/
theorem C25_roundtrip_partial {α : Type} (g : Geo) (ok : g.Ok) (X : Nat → Nat → Coords) (hX : CoordTable g X) (mu : Dir) (h : PerpDivides g mu)
    (hs : CopyOk g (locDirMaker g X mu)) (hs' : CopyOk g (locDirUnmaker g mu)) (f : Nat → Nat → α)
    (junk : Nat → Nat) (junk' : Nat → α) (order order' : Nat → List Nat) (ho : ∀ r, r < g.nranks → (order r).Perm (List.range g.locVol)) (ho' : ∀ r, r < g.nranks → (order' r).Perm (List.range g.locVol))
    (out out' : Nat → Nat → α) :
    (∃ buf f', RunsTo g.nranks (remapList g.nranks (fun _ => g.locVol) (locDirMaker g X mu)) junk junk' order f out buf ∧
      RunsTo g.nranks (remapList g.nranks (fun r => (locdSize g mu r).toNat) (locDirUnmaker g mu)) junk junk' order' buf out' f') ∧
    ∀ buf f', RunsTo g.nranks (remapList g.nranks (fun _ => g.locVol) (locDirMaker g X mu)) junk junk' order f out buf →
      RunsTo g.nranks (remapList g.nranks (fun r => (locdSize g mu r).toNat) (locDirUnmaker g mu)) junk junk' order' buf out' f' →
      ∀ r i, r < g.nranks → i < g.locVol → f' r i = f r i := by
  have hb := locd_bij g ok X hX mu h
  obtain ⟨⟨buf, h1⟩, h2⟩ := block_run g ok _ _ hb hs f junk junk' order ho out
  have hiff : ∀ (buf f' : Nat → Nat → α), RunsTo g.nranks (remapList g.nranks (fun r => (locdSize g mu r).toNat) (locDirUnmaker g mu)) junk junk' order' buf out' f' ↔
      RunsTo g.nranks (remapList g.nranks (fun _ => g.locVol) (locDirUnmaker g mu)) junk junk' order' buf out' f' := fun buf f' => unmaker_runs g ok mu h _ _ _ _ _ _
  refine ⟨⟨buf, ?_⟩, fun buf f' hbuf hf' r i hr hi => ?_⟩
  · obtain ⟨⟨f', h3⟩, -⟩ := block_run g ok _ _ hb.symm hs' buf junk junk' order' ho' out'
    exact ⟨f', h1, (hiff _ _).2 h3⟩
  obtain ⟨-, h4⟩ := block_run g ok _ _ hb.symm hs' buf junk junk' order' ho' out'
  rw [(h4 f' ((hiff _ _).1 hf')).2 r i hr hi, (h2 buf hbuf).1 r i hr hi]

/-- C25: the conditions are met if the direction made local is not divided among the ranks and, of the others, only the slowest is -/
theorem C25_slabs (g : Geo) (ok : g.Ok) (X : Nat → Nat → Coords) (hX : CoordTable g X) (mu d : Dir) (hd : (perp mu).head? = some d) (hR : ∀ nu, nu ≠ d → g.R nu = 1) :
    PerpDivides g mu ∧ CopyOk g (locDirMaker g X mu) ∧ CopyOk g (locDirUnmaker g mu) := by
  have hperp : ∃ ds, perp mu = d :: ds ∧ mu ≠ d := by
    have key : ∀ mu d : Dir, (perp mu).head? = some d → mu ≠ d := by decide
    cases hp : perp mu with
    | nil => rw [hp] at hd; cases hd
    | cons a l =>
      have : a = d := by rw [hp] at hd; exact Option.some.inj hd
      subst this
      exact ⟨l, rfl, key mu a hd⟩
  obtain ⟨ds, hds, hne⟩ := hperp
  have hdiv : PerpDivides g mu := by
    have h1 := vol_perp g mu (L_pos ok mu)
    have hNR : g.nranks = g.R d := by
      unfold Geo.nranks volOfLx dirs
      simp only [List.foldl_cons, List.foldl_nil, Nat.one_mul]
      fin_cases d <;> simp [hR]
    unfold PerpDivides
    rw [h1.1, hNR, hds, List.reverse_cons]
    have hvol : ∀ l : List Dir, ∀ s : Coords, volR (l ++ [d]) s = s d * volR l s := by
      intro l s
      induction l with
      | nil => simp [volR]
      | cons e l ih => simp only [List.cons_append, volR, ih]; ring
    rw [hvol]
    exact Dvd.dvd.mul_right (ok.dvd d) _
  have hb := locd_bij g ok X hX mu hdiv
  have hself : ∀ r i, r < g.nranks → i < g.locVol → (locDirMaker g X mu r i).1 = r := by
    intro r i hr hi
    obtain ⟨h1, h2⟩ := coordTable_of g ok X hX r i hr hi
    rw [maker_eq g ok X mu hdiv r i (h1 mu)]
    show (mix (perp mu) g.L (X r i) * g.L mu + X r i mu) / g.locVol = r
    rw [← mix_append, hds, List.cons_append, slab_local g ok d (ds ++ [mu]) (by rw [← List.cons_append, ← hds]; exact perp_perm mu) hR _ h1, h2]
  refine ⟨hdiv, fun r hr => self_ok hb hself r hr, fun r hr => self_ok hb.symm (fun r i hr hi => ?_) r hr⟩
  obtain ⟨a, b⟩ := hb.from_lt r i hr hi
  have h1 := hself _ _ a b
  rw [hb.right r i hr hi] at h1
  exact h1.symm

end Nissa.Layouts
