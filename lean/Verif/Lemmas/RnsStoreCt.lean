import Verif.Lemmas.RnsStore
import Verif.Lemmas.InPlaceCalls
/-!
# Calls on RNS ciphertexts have no undefined behaviour
-/

namespace Shell.Rns
open Res Spec

variable {w l : ℕ}

/-- A component of dimension `2^l`. -/
abbrev DimIs (l : ℕ) (c : RPoly) : Prop := c.logN = l ∧ Filled c

theorem DimIs.rect {c : RPoly} (h : DimIs l c) : Rect l c.coeffs.length c := ⟨h.1, rfl, fun v hv => by rw [h.2 v hv, h.1]⟩

theorem Rect.comp {k : ℕ} {c : RPoly} (h : Rect l k c) : DimIs l c := ⟨h.logN, fun v hv => by rw [h.len v hv, h.logN]⟩

theorem comp_tame {k : ℕ} {r : Res RPoly} (h : Tame (Rect l k) r) : Tame (DimIs l) r := h.mono fun _ => Rect.comp

theorem comp_tame' {r : Res RPoly} (h : Tame (RectAny l) r) : Tame (DimIs l) r := h.mono fun _ ⟨_, h⟩ => h.comp

namespace RCt

/-- What every call keeps of a ciphertext. -/
structure Kept (w l : ℕ) (x : RCt) : Prop where
  moduli : ModuliOf w l x.ms
  someModulus : x.ms ≠ []
  someComponent : x.c ≠ []
  components : ∀ c ∈ x.c, DimIs l c

variable {x y : RCt}

theorem onComponents_tame (hx : Kept w l x) {r : Res (List RPoly)}
    (h : Tame (fun ys => ys.length = x.c.length ∧ ∀ y ∈ ys, DimIs l y) r) : 
    Tame (fun y => Kept w l y ∧ y.ms = x.ms) (onComponents x r) :=
  ⟨⟨⟨hx.moduli, hx.someModulus, fun e => hx.someComponent (by
    have := h.1.1
    simp only [onComponents] at e
    rw [e] at this
    exact List.length_eq_zero_iff.1 this.symm), h.1.2⟩, rfl⟩, h.2⟩

theorem kept_tame {r : Res RCt} (h : Tame (fun y => Kept w l y ∧ y.ms = x.ms) r) : Tame (Kept w l) r := h.mono fun _ => And.left

theorem all_tame (hx : Kept w l x) {f : RPoly → Res RPoly} (h : ∀ c, DimIs l c → Tame (DimIs l) (f c)) :
    Tame (fun y => Kept w l y ∧ y.ms = x.ms) (onComponents x (all f x.c)) :=
  onComponents_tame hx (.all hx.components fun c hc => h c (hx.components c hc))

theorem onFirst_tame (hx : Kept w l x) {f : RPoly → Res RPoly} (h : ∀ c, DimIs l c → Tame (DimIs l) (f c)) :
    Tame (Kept w l) (onFirst x f) := by
  obtain ⟨cs, ms, pw⟩ := x
  cases cs with
  | nil => exact absurd rfl hx.someComponent
  | cons c cs =>
    have := h c (hx.components c (by simp))
    refine ⟨⟨hx.moduli, hx.someModulus, by simp [onFirst], ?_⟩, this.2⟩
    intro d hd
    simp only [onFirst, List.mem_cons] at hd
    rcases hd with rfl | hd
    · exact this.1
    · exact hx.components d (by simp [hd])

theorem check_safe : Safe (fun _ => x.c.length = y.c.length) (check x y) := by
  cases h : check x y with
  | ok u => exact .ok (check_ok h)
  | err e => exact .err
  | ub u =>
    unfold check at h
    split at h
    · cases h
    · split at h
      · cases h
      · split at h <;> cases h

theorem each_tame (hx : Kept w l x) {f : RPoly → RPoly → Res RPoly} (h : ∀ c d, DimIs l c → Tame (DimIs l) (f c d)) :
    Tame (Kept w l) (withTemp x (check x y) fun _ => onComponents x (each f x.c y.c)) :=
  .withTemp hx check_safe fun _ hl => kept_tame (onComponents_tame hx (.each hl hx.components fun c hc d _ =>
    h c d (hx.components c hc)))

theorem setPadIn_tame (hx : Kept w l x) {a : RPoly} (ha : DimIs l a) : Tame (Kept w l) (setPadIn x a) := by
  unfold setPadIn
  refine .ite (fun _ => .reject hx) fun h => .ite (fun h2 => ?_) fun _ => .done ⟨hx.moduli, hx.someModulus, by simp, ?_⟩
  · rw [wr_ok (by omega)]
    refine .done ⟨hx.moduli, hx.someModulus, by simpa using hx.someComponent, fun d hd => ?_⟩
    rcases List.mem_or_eq_of_mem_set hd with h | rfl
    · exact hx.components d h
    · exact ha
  · intro d hd
    simp only [List.mem_append, List.mem_singleton] at hd
    rcases hd with h | rfl
    · exact hx.components d h
    · exact ha

theorem dropLast_tame {r : Res RCt} (hms : 1 < x.ms.length) (h : Tame (fun y => Kept w l y ∧ y.ms = x.ms) r) :
    Tame (Kept w l) (r.andThen fun x => ({ x with ms := x.ms.dropLast }, .ok ())) :=
  h.andThen (fun _ => And.left) fun y ⟨hy, e⟩ => .done ⟨fun m hm => hy.moduli m (List.mem_of_mem_dropLast hm), by
    intro h0
    have := congrArg List.length h0
    simp only [List.length_dropLast, e, List.length_nil] at this
    omega, hy.someComponent, hy.components⟩

theorem modReduceBgvIn_tame (hx : Kept w l x) {t : ℕ} (ht : t ≠ 0) (qlInv : List ℕ) :
    Tame (Kept w l) (modReduceBgvIn x t qlInv) :=
  .ite (fun _ => .err hx) fun h => dropLast_tame (by omega) (all_tame hx fun _ hc =>
    comp_tame' (modReduceLsbIn_tame ht qlInv hx.moduli hc.rect))

theorem modReduceBfvIn_tame (hx : Kept w l x) {ctx : Ctx} {row : List ℕ} (hr : ctx.primeQInvs[x.ms.length - 1]? = some row)
    (hlen : x.ms.length - 1 ≤ row.length) : Tame (Kept w l) (modReduceBfvIn ctx x) := by
  unfold modReduceBfvIn
  refine .ite (fun _ => .err hx) fun h => ?_
  have : rd ctx.primeQInvs (x.ms.length - 1) = .ok row := by unfold rd; rw [hr]
  simp only [this, withTemp]
  rw [if_neg (by omega)]
  exact dropLast_tame (by omega) (all_tame hx fun _ hc => comp_tame' (modReduceMsbIn_tame _ hx.moduli hc.rect))

end RCt

/-! ### Lazy sums -/

/-- Vectors of a lazy sum, all of the same power-of-two length, at least one. -/
def LGood (z : LRns) : Prop := z.coeffs ≠ [] ∧ ∃ l', ∀ v ∈ z.coeffs, v.length = 2 ^ l'

theorem firstN_safe {v : List ℕ} {n : ℕ} (h : v.length = n) : Safe (fun u => u.length = n) (LRns.firstN v n) := by
  unfold LRns.firstN
  rw [if_neg (by omega)]
  exact .ok (by simp; omega)

theorem lcreate_safe {ms : List Modulus} {a b : RPoly} (hne : ms ≠ []) (ha : Filled a) (hb : Filled b) :
    Safe LGood (LRns.create w ms a b) := by
  unfold LRns.create
  refine .ite (fun _ => .err) fun _ => .ite (fun _ => .err) fun h1 => .ite (fun _ => .err) fun h2 => ?_
  have hl : ∀ acc, Safe (fun _ => True) (LRns.logMaxLoop acc ms) := by
    intro acc
    clear hne h2
    induction ms generalizing acc with
    | nil => exact .ok trivial
    | cons m ms ih =>
      unfold LRns.logMaxLoop
      exact .ite (fun _ => .err) fun _ => ih _
  have : Safe (fun _ => True) (LRns.maxLevelOf w ms) := (hl _).bind fun _ _ => .ok trivial
  refine this.bind fun mx _ => ?_
  refine (Safe.perModulus (S := fun v => v.length = 2 ^ a.logN) ?_ fun m _ ab hab => ?_).bind fun cs hcs => ?_
  · rw [List.length_zip]; omega
  · have h := List.of_mem_zip hab
    unfold LRns.products
    refine (firstN_safe (ha _ h.1)).bind fun u hu => (firstN_safe ?_).bind fun u' hu' => .ok (by simp [hu, hu'])
    rw [hb _ h.2, not_not.1 h1]
  · refine .ok ⟨fun h => ?_, a.logN, hcs.2⟩
    simp only at h
    have h0 := hcs.1
    rw [h, List.length_zip, List.length_nil] at h0
    have := List.length_pos_iff.2 hne
    omega

theorem lfused_tame {ms : List Modulus} {z : LRns} {a b : RPoly} (hz : LGood z) (ha : Filled a) (hb : Filled b) :
    Tame LGood (LRns.fusedMulAddIn w ms z a b) := by
  unfold LRns.fusedMulAddIn
  refine .ite (fun _ => .reject hz) fun _ => .ite (fun _ => .reject hz) fun h1 => ?_
  refine .withTemp hz (Safe.rd (List.length_pos_iff.2 hz.1)) fun c0 hc0 => .ite (fun _ => .reject hz) fun h2 => ?_
  obtain ⟨hne, l', hl'⟩ := hz
  have h0 := hl' c0 hc0
  have hr : Tame (fun s : LRns => s.coeffs.length = z.coeffs.length ∧ ∀ v ∈ s.coeffs, v.length = 2 ^ l')
      (if z.level = z.maxLevel then assign z (LRns.refresh ms z) else (z, .ok ())) := by
    refine .ite (fun _ => ?_) fun _ => .done ⟨rfl, hl'⟩
    refine .withTemp ⟨rfl, hl'⟩ (T := fun s => s.coeffs.length = z.coeffs.length ∧ ∀ v ∈ s.coeffs, v.length = 2 ^ l') ?_
      fun s hs => .done hs
    unfold LRns.refresh
    exact (Safe.perModulus (S := fun v => v.length = 2 ^ l') (by omega) fun m _ v hv => .ok (by simp [hl' v hv])).bind
      fun cs hcs => .ok hcs
  have good : ∀ s : LRns, s.coeffs.length = z.coeffs.length ∧ (∀ v ∈ s.coeffs, v.length = 2 ^ l') → LGood s :=
    fun s hs => ⟨fun e => hne (List.length_eq_zero_iff.1 (by rw [← hs.1, e]; rfl)), l', hs.2⟩
  refine hr.andThen good fun s hs => ?_
  refine .withTemp (good s hs) (Safe.perModulus (S := fun v => v.length = 2 ^ l') ?_ fun m _ cab hcab => ?_) fun cs hcs =>
    .done (good _ ⟨?_, hcs.2⟩)
  · rw [List.length_zip, List.length_zip]; omega
  · have m1 := List.of_mem_zip hcab
    have m2 := List.of_mem_zip m1.2
    unfold LRns.addProducts
    push Not at h2
    refine (firstN_safe (by rw [h0]; exact hs.2 _ m1.1)).bind fun c hc => ?_
    refine (firstN_safe (by rw [← h2.1]; exact ha _ m2.1)).bind fun a ha => ?_
    refine (firstN_safe (by rw [← h2.2]; exact hb _ m2.2)).bind fun b hb => .ok (by simp [hc, ha, hb, h0])
  · simp only [hcs.1, List.length_zip]; omega

theorem export_safe {ms : List Modulus} {z : LRns} (hz : LGood z) : Safe (fun _ => True) (z.exportPoly ms) := by
  unfold LRns.exportPoly
  refine .ite (fun _ => .err) fun h => ?_
  refine (Safe.rd (List.length_pos_iff.2 hz.1)).bind fun _ _ => ?_
  refine (Safe.perModulus (S := fun _ => True) (not_not.1 h) fun m _ v _ => .ok trivial).bind fun cs _ => ?_
  unfold Rns.create
  split
  · exact .err
  · exact .ite (fun _ => .err) fun _ => .ite (fun _ => .err) fun _ => .ok trivial

namespace LCt
variable {x : LCt}

theorem _root_.Shell.Spec.Sound.kept (h : Sound w l x) : RCt.Kept w l x.ct :=
  ⟨h.moduli, h.someModulus, h.someComponent, h.components⟩

theorem onCt_tame (hs : Sound w l x) {r : Res RCt} (h : Tame (RCt.Kept w l) r) : Tame (Sound w l) (Call.onCt x r) :=
  ⟨⟨h.1.moduli, h.1.someModulus, h.1.someComponent, h.1.components, hs.lazyOne, hs.lazyPoly⟩, h.2⟩

theorem fusedAbsorbLazilyIn_tame (hs : Sound w l x) {y : RCt} {pt : RPoly} (hy : ∀ c ∈ y.c, Filled c) (hp : Filled pt) :
    Tame (Sound w l) (fusedAbsorbLazilyIn w x y pt) := by
  unfold fusedAbsorbLazilyIn
  refine .ite (fun _ => .reject hs) fun h1 => .ite (fun _ => .reject hs) fun _ => .ite (fun _ => .reject hs) fun _ => ?_
  refine .withTemp hs (Safe.rd (by omega)) fun v hv => ?_
  split
  · exact .withTemp hs (lcreate_safe hs.someModulus (hy v hv) hp) fun z hz => .done
      ⟨hs.moduli, hs.someModulus, hs.someComponent, hs.components, by simp, fun z' hz' => by rw [List.mem_singleton.1 hz']; exact hz⟩
  · next z zs h =>
    have hz : LGood z := hs.lazyPoly z (by simp [h])
    have h1 := hs.lazyOne
    rw [h] at h1
    have : zs = [] := by simpa using h1
    subst this
    have := lfused_tame (w := w) (ms := x.ct.ms) hz (hy v hv) hp
    exact ⟨⟨hs.moduli, hs.someModulus, hs.someComponent, hs.components, by simp, fun z' hz' => by rw [List.mem_singleton.1 hz']; exact this.1⟩, this.2⟩

theorem mergeIn_tame (hs : Sound w l x) : Tame (Sound w l) (mergeIn x) := by
  unfold mergeIn
  refine .ite (fun _ => .err hs) fun hne => ?_
  obtain ⟨⟨cs, ms, pw⟩, lz⟩ := x
  have h1 := hs.lazyOne
  obtain _ | ⟨z, zs⟩ := lz
  · simp at hne
  have : zs = [] := by simpa using h1
  subst this
  have hz : LGood z := hs.lazyPoly z (by simp)
  obtain _ | ⟨c, cs⟩ := cs
  · exact absurd rfl hs.someComponent
  simp only [mergeLoopIn]
  rcases export_safe (ms := ms) hz with ⟨e, he, _⟩ | ⟨e, he⟩
  · rw [he]
    have hc := hs.components c (by simp)
    have ha := comp_tame (addIn_tame (ms := ms) (y := e) (DimIs.rect hc))
    have hall : ∀ d ∈ (addIn ms c e).1 :: cs, DimIs l d := by
      intro d hd
      simp only [List.mem_cons] at hd
      rcases hd with rfl | hd
      · exact ha.1
      · exact hs.components d (by simp [hd])
    simp only [withTemp]
    cases h : (addIn ms c e).2 with
    | ok u => exact .done ⟨hs.moduli, hs.someModulus, by simp, hall, by simp, by simp⟩
    | err s => exact .err ⟨hs.moduli, hs.someModulus, by simp, hall, by simp, fun z' hz' => by rw [List.mem_singleton.1 hz']; exact hz⟩
    | ub u => exact absurd h (ha.2 u)
  · rw [he]
    exact .err hs

end LCt

theorem Call.run_tame {x : LCt} {op : Call} (hs : Sound w l x) (hc : Careful l x op) : Tame (Sound w l) (op.run w x) := by
  have hk := hs.kept
  cases op with
  | negate => exact LCt.onCt_tame hs (RCt.kept_tame (RCt.all_tame hk fun _ hc => comp_tame (negateIn_tame (DimIs.rect hc))))
  | add y => exact LCt.onCt_tame hs (RCt.each_tame hk fun _ _ hc => comp_tame (addIn_tame (DimIs.rect hc)))
  | sub y => exact LCt.onCt_tame hs (RCt.each_tame hk fun _ _ hc => comp_tame (subIn_tame (DimIs.rect hc)))
  | addPlain pt =>
    exact LCt.onCt_tame hs (.ite (fun _ => .reject hk) fun _ => RCt.onFirst_tame hk fun _ hc => comp_tame (addIn_tame (DimIs.rect hc)))
  | subPlain pt =>
    exact LCt.onCt_tame hs (.ite (fun _ => .reject hk) fun _ => RCt.onFirst_tame hk fun _ hc => comp_tame (subIn_tame (DimIs.rect hc)))
  | absorb pt => exact LCt.onCt_tame hs (RCt.kept_tame (RCt.all_tame hk fun _ hc => comp_tame (mulIn_tame (DimIs.rect hc))))
  | absorbSimple pt =>
    exact LCt.onCt_tame hs (.ite (fun _ => .reject hk) fun _ => .ite (fun _ => .reject hk) fun _ =>
      RCt.kept_tame (RCt.all_tame hk fun _ hc => comp_tame (mulIn_tame (DimIs.rect hc))))
  | absorbRns z =>
    exact LCt.onCt_tame hs (.ite (fun _ => .reject hk) fun _ =>
      RCt.kept_tame (RCt.all_tame hk fun _ hc => comp_tame (mulRnsIn_tame z (DimIs.rect hc))))
  | absorbInt z => exact LCt.onCt_tame hs (RCt.kept_tame (RCt.all_tame hk fun _ hc => comp_tame (mulIntIn_tame z (DimIs.rect hc))))
  | fusedAbsorbAdd y pt => exact LCt.onCt_tame hs (RCt.each_tame hk fun _ _ hc => comp_tame (fusedMulAddIn_tame (DimIs.rect hc)))
  | fusedAbsorbAddWithoutPad y pt =>
    exact LCt.onCt_tame hs (.ite (fun _ => .reject hk) fun h => .ite (fun _ => .reject hk) fun _ =>
      .ite (fun _ => .reject hk) fun _ => .withTemp hk (Safe.rd (by omega)) fun v _ =>
        RCt.onFirst_tame hk fun _ hc => comp_tame (fusedMulAddIn_tame (DimIs.rect hc)))
  | fusedAbsorbLazily y pt => exact LCt.fusedAbsorbLazilyIn_tame hs hc.1 hc.2
  | merge => exact LCt.mergeIn_tame hs
  | setPad a => exact LCt.onCt_tame hs (RCt.setPadIn_tame hk hc)
  | toNtt => exact LCt.onCt_tame hs (RCt.kept_tame (RCt.all_tame hk fun _ hc => comp_tame (toNttIn_tame hk.moduli (DimIs.rect hc))))
  | toCoeff => exact LCt.onCt_tame hs (RCt.kept_tame (RCt.all_tame hk fun _ hc => comp_tame (toCoeffIn_tame hk.moduli (DimIs.rect hc))))
  | modReduceBgv t q => exact LCt.onCt_tame hs (RCt.modReduceBgvIn_tame hk hc q)
  | modReduceBfv ctx =>
    obtain ⟨row, h1, h2⟩ := hc
    exact LCt.onCt_tame hs (RCt.modReduceBfvIn_tame hk h1 h2)

end Shell.Rns
