import Verif.Lemmas.Crt
import Verif.Lemmas.RnsReduce
/-! The three conversions between RNS bases. -/

namespace Shell.Rns
open Spec Poly

variable {w l n : ℕ}

theorem mapM_ok' {α β : Type} (f : α → Outcome β) (g : α → β) (L : List α)
    (h : ∀ a ∈ L, f a = .ok (g a)) : L.mapM f = .ok (L.map g) := by
  induction L with
  | nil => rfl
  | cons a L ih =>
    rw [List.mapM_cons, h a (by simp), Outcome.bind_ok, ih fun b hb => h b (by simp [hb])]
    rfl

theorem rd_some {α : Type} {v : List α} {i : ℕ} {a : α} (h : v[i]? = some a) : rd v i = .ok a := by
  unfold rd; rw [h]

theorem forall₂_get {α β : Type} {P : α → β → Prop} : ∀ {a : List α} {b : List β},
    List.Forall₂ P a b → ∀ (i : ℕ) (x : α), a[i]? = some x → ∃ y, b[i]? = some y ∧ P x y := by
  intro a b h
  induction h with
  | nil => intro i x hx; simp at hx
  | cons hp _ ih =>
    intro i x hx
    cases i with
    | zero => simp only [List.getElem?_cons_zero, Option.some.injEq] at hx ⊢; subst hx; exact ⟨_, rfl, hp⟩
    | succ i => simp only [List.getElem?_cons_succ] at hx ⊢; exact ih i x hx

theorem forall₂_range' {α : Type} (a c : List α) (s : ℕ) (h : ∀ i, a[i]? = c[s + i]?) :
    List.Forall₂ (fun x j => c[j]? = some x) a (List.range' s a.length) := by
  induction a generalizing s with
  | nil => exact .nil
  | cons x a ih =>
    rw [List.length_cons, List.range'_succ]
    refine .cons ?_ (ih (s + 1) fun i => ?_)
    · have := h 0; rw [Nat.add_zero] at this; rw [← this]; rfl
    · have := h (i + 1)
      rw [List.getElem?_cons_succ] at this
      rw [this]; congr 1; omega

theorem forall₂_range {α : Type} (a : List α) :
    List.Forall₂ (fun x j => a[j]? = some x) a (List.range a.length) := by
  rw [List.range_eq_range']
  exact forall₂_range' a a 0 (fun i => by rw [Nat.zero_add])

theorem neZero_of_create {m : Modulus} (hc : MParams.create w m.N = .ok m.p) : NeZero m.N :=
  ⟨by have := (good_of_create hc).pos; omega⟩

theorem res_of_export' {m : Modulus} (hc : MParams.create w m.N = .ok m.p) {a : ℕ} {z : ℤ}
    (ha : a ≤ m.N) (h : (Mont.exportInt m.p a : ℤ) = z % m.N) : res m.p m.N a = (z : ZMod m.N) := by
  haveI := neZero_of_create hc
  rw [← res_export (good_of_create hc) ha]
  have h4 : ((Mont.exportInt m.p a : ℤ) : ZMod m.N) = ((z % m.N : ℤ) : ZMod m.N) := by rw [h]
  rw [Int.cast_natCast, ZMod.intCast_mod] at h4
  exact h4

/-! ### The accumulation -/

theorem _root_.Shell.Poly.Rep.congr {p : MParams} {N : ℕ} {v : List ℕ} {X Y : Fin n → ZMod N} (h : Rep p N n v X)
    (e : X = Y) : Rep p N n v Y := e ▸ h

theorem accumulate_ok {conv : List ℕ → MParams → MParams → List ℕ} {pj : Modulus}
    (hp : MParams.create w pj.N = .ok pj.p) {c : ℕ → Outcome ℕ} {T : Modulus → Fin n → ℤ}
    {h : Modulus → ℤ} : ∀ {ms : List Modulus} {vs : List (List ℕ)},
    List.Forall₂ (fun m v => Rep pj.p pj.N n (conv v m.p pj.p) (modq pj.N (T m))) ms vs →
    ∀ {i0 : ℕ} {acc : List ℕ} {A : Fin n → ℤ}, Rep pj.p pj.N n acc (modq pj.N A) →
    (∀ k m, ms[k]? = some m →
      ∃ a, c (i0 + k) = .ok a ∧ a ≤ pj.N ∧ res pj.p pj.N a = (h m : ZMod pj.N)) →
    ∃ r, accumulate conv pj.p c i0 ms vs acc = .ok r ∧
      Rep pj.p pj.N n r (modq pj.N fun i => A i + (ms.map fun m => T m i * h m).sum) := by
  have g := good_of_create hp
  intro ms vs hv
  induction hv with
  | nil =>
    intro i0 acc A hA _
    exact ⟨acc, rfl, hA.congr (by simp)⟩
  | @cons m v ms vs h1 _ ih =>
    intro i0 acc A hA hc
    obtain ⟨a, a1, a2, a3⟩ := hc 0 m rfl
    rw [Nat.add_zero] at a1
    obtain ⟨s, s1, s2⟩ := h1.mulScalar g a2
    obtain ⟨r, r1, r2⟩ := hA.add g s2
    have r3 : Rep pj.p pj.N n r (modq pj.N fun i => A i + T m i * h m) := r2.congr (by
      funext i; simp only [modq, Pi.add_apply, a3]; push_cast; ring)
    obtain ⟨r', e1, e2⟩ := ih (i0 := i0 + 1) r3 (fun k m' hm' => by
      have := hc (k + 1) m' (by simpa using hm')
      rwa [show i0 + (k + 1) = i0 + 1 + k by ring] at this)
    refine ⟨r', ?_, e2.congr ?_⟩
    · unfold accumulate
      rw [a1, Outcome.bind_ok]
      unfold Poly.mulScalar Poly.add
      rw [s1, copying_ok, Outcome.bind_ok, r1, copying_ok, Outcome.bind_ok, e1]
    · funext i; simp only [modq, List.map_cons, List.sum_cons]; congr 1; ring

theorem zero_rep {m : Modulus} (hc : MParams.create w m.N = .ok m.p) :
    Rep m.p m.N n (List.replicate n (Mont.importZero m.p)) (modq m.N fun _ => 0) := by
  have g := good_of_create hc
  have h0 := replicate_rep (m := m) (n := n) (c := Mont.importZero m.p) (z := 0)
    (by unfold Mont.importZero; omega) (by unfold Mont.importZero res; simp)
  exact h0.congr (by funext i; simp [modq])

/-- The digits of an integer in the RNS basis, in the range of the conversion used. -/
noncomputable def rdigit (balanced : Bool) (Q N : ℕ) (z : ℤ) : ℤ :=
  if balanced then centered N (digit Q N z) else ((digit Q N z).val : ℤ)

theorem rdigit_cast {N : ℕ} [NeZero N] (b : Bool) (Q : ℕ) (z : ℤ) :
    ((rdigit b Q N z : ℤ) : ZMod N) = digit Q N z := by
  unfold rdigit
  split
  · exact centered_cast N _
  · simp

/-- The integer the accumulated sum represents. -/
noncomputable def crtSum (b : Bool) (ns : List ℕ) (z : ℤ) : ℤ :=
  (ns.map fun n => rdigit b ns.prod n z * (ns.prod / n : ℕ)).sum

theorem scaled_digit {m : Modulus} (hc : MParams.create w m.N = .ok m.p) {ns : List ℕ}
    (hcop : ns.Pairwise Nat.Coprime) (hpos : ∀ n ∈ ns, 0 < n) (hm : m.N ∈ ns) {e : ℕ}
    (he : (m.N : ℤ) ∣ e * (ns.prod / m.N : ℕ) - 1) {v : List ℕ} {F : Fin n → ℤ}
    (hv : Rep m.p m.N n v (modq m.N fun i => e * F i)) :
    Rep m.p m.N n v (fun i => digit ns.prod m.N (F i)) := by
  have hu := ZMod.coe_mul_inv_eq_one (ns.prod / m.N) (coprime_hat hcop hpos hm)
  have h1 : (e : ZMod m.N) * ((ns.prod / m.N : ℕ) : ZMod m.N) = 1 := by
    have := (ZMod.intCast_zmod_eq_zero_iff_dvd _ m.N).mpr he
    rw [Int.cast_sub, Int.cast_mul, Int.cast_natCast, Int.cast_natCast, Int.cast_one] at this
    linear_combination this
  have h2 : (e : ZMod m.N) = ((ns.prod / m.N : ℕ) : ZMod m.N)⁻¹ := by
    linear_combination (((ns.prod / m.N : ℕ) : ZMod m.N)⁻¹) * h1 - (e : ZMod m.N) * hu
  refine hv.congr ?_
  funext i
  unfold digit modq
  push_cast
  rw [h2]; ring

theorem convert_digit {m pj : Modulus} (hm : MParams.create w m.N = .ok m.p)
    (hp : MParams.create w pj.N = .ok pj.p) (b : Bool) {Q : ℕ} {F : Fin n → ℤ} {v : List ℕ}
    (hv : Rep m.p m.N n v (fun i => digit Q m.N (F i))) :
    Rep pj.p pj.N n
      ((if b then Convert.convertModulusBalanced else Convert.convertModulus) v m.p pj.p)
      (modq pj.N fun i => rdigit b Q m.N (F i)) := by
  cases b with
  | true => exact convertBalanced_rep hm hp hv
  | false => exact convert_rep hm hp hv

theorem entry_ok {ms outs : List Modulus} {t : List (List ℕ)} {h : Modulus → ℤ}
    (ht : List.Forall₂ (fun m row => RnsIntIs outs row (h m)) ms t)
    (ho : ∀ p ∈ outs, MParams.create w p.N = .ok p.p) {j : ℕ} {pj : Modulus}
    (hj : outs[j]? = some pj) {k : ℕ} {m : Modulus} (hk : ms[k]? = some m) :
    ∃ a, entry t j k = .ok a ∧ a ≤ pj.N ∧ res pj.p pj.N a = (h m : ZMod pj.N) := by
  obtain ⟨row, r1, r2⟩ := forall₂_get ht k m hk
  obtain ⟨a, a1, a2, a3⟩ := forall₂_get r2 j pj hj
  refine ⟨a, ?_, a2, res_of_export' (ho pj (List.mem_of_getElem? hj)) a2 a3⟩
  unfold entry
  rw [rd_some r1, Outcome.bind_ok, rd_some a1]

theorem prod_map_N (ms : List Modulus) : (ms.map (·.N)).prod = modulusProd ms := rfl

theorem pos_of_create {ms : List Modulus} (hm : ∀ m ∈ ms, MParams.create w m.N = .ok m.p) :
    ∀ n ∈ ms.map (·.N), 0 < n := by
  intro n hn
  obtain ⟨m, h1, rfl⟩ := List.mem_map.mp hn
  have := (good_of_create (hm m h1)).pos
  omega

theorem forall₂_mem {α β : Type} {P : α → β → Prop} {a : List α} {b : List β}
    (h : List.Forall₂ P a b) : List.Forall₂ (fun x y => x ∈ a ∧ P x y) a b :=
  forall₂_and_left (fun _ hx => hx) h

section
variable {ms outs : List Modulus} {X : RPoly} {F : Fin (2 ^ l) → ℤ}

/-- The sums for one output modulus. -/
theorem accumulate_hats (hm : ∀ m ∈ ms, MParams.create w m.N = .ok m.p)
    (ho : ∀ p ∈ outs, MParams.create w p.N = .ok p.p) {Z : Fin n → ℤ} (b : Bool)
    {scaled : List (List ℕ)} {t : List (List ℕ)}
    (hs : List.Forall₂ (fun m v => Rep m.p m.N n v (fun i => digit (modulusProd ms) m.N (Z i)))
      ms scaled)
    (ht : HatResidues ms outs t) {j : ℕ} {pj : Modulus} (hj : outs[j]? = some pj) :
    ∃ r, accumulate (if b then Convert.convertModulusBalanced else Convert.convertModulus) pj.p
        (entry t j) 0 ms scaled (List.replicate n (Mont.importZero pj.p)) = .ok r ∧
      Rep pj.p pj.N n r (modq pj.N fun i => crtSum b (ms.map (·.N)) (Z i)) := by
  have hp := ho pj (List.mem_of_getElem? hj)
  obtain ⟨r, r1, r2⟩ := accumulate_ok (n := n) hp
    (conv := if b then Convert.convertModulusBalanced else Convert.convertModulus)
    (T := fun m i => rdigit b (modulusProd ms) m.N (Z i))
    (h := fun m => ((modulusProd ms / m.N : ℕ) : ℤ))
    ((forall₂_mem hs).imp fun m v h => convert_digit (hm m h.1) hp b h.2)
    (i0 := 0) (zero_rep (n := n) hp)
    (c := entry t j) (fun k m hk => by
      rw [Nat.zero_add]; exact entry_ok ht ho hj hk)
  refine ⟨r, r1, r2.congr ?_⟩
  funext i
  simp only [modq, zero_add]
  unfold crtSum
  rw [List.map_map]
  rfl

theorem repr_approxSwitch (hg : ∀ m ∈ ms, GoodModulus w l m)
    (ho : ∀ p ∈ outs, MParams.create w p.N = .ok p.p)
    (hcop : (ms.map (·.N)).Pairwise Nat.Coprime) (hne : ms ≠ []) (hno : outs ≠ [])
    (hX : Represents l ms X F) {hatInv : List ℕ} {hatMod : List (List ℕ)}
    (hi : HatInvs ms hatInv) (ht : HatResidues ms outs hatMod) (b : Bool) :
    ∃ r, approxSwitchBasis b ms outs hatInv hatMod X = .ok r ∧ r.ntt = false ∧
      Represents l outs r (fun i => crtSum b (ms.map (·.N)) (F i)) := by
  have hm : ∀ m ∈ ms, MParams.create w m.N = .ok m.p := fun m h => (hg m h).create
  obtain ⟨m0, hm0⟩ := List.exists_mem_of_ne_nil ms hne
  have hl := (hg m0 hm0).l15
  obtain ⟨scaled, s1, s2⟩ := perModulus_ok
    (f := fun m (vc : List ℕ × ℕ) => (do
      let v ← Poly.mulScalar m.p vc.1 vc.2
      if X.ntt then Ntt.inverse m.p m.q v else .ok v : Outcome (List ℕ)))
    (R := fun m v => Rep m.p m.N (2 ^ l) v (fun i => digit (modulusProd ms) m.N (F i)))
    (fun m v h => by
      obtain ⟨hmem, h1, h2, h3⟩ : m ∈ ms ∧ Holds l m X.ntt v.1 F ∧ v.2 ≤ m.N ∧
        (m.N : ℤ) ∣ Mont.exportInt m.p v.2 * (modulusProd ms / m.N : ℕ) - 1 := h
      have gm := hg m hmem
      have hz : res m.p m.N v.2 = ((Mont.exportInt m.p v.2 : ℤ) : ZMod m.N) := by
        rw [Int.cast_natCast]; exact (res_export gm.good h2).symm
      obtain ⟨r, r1, r2⟩ := h1.mulScalar gm h2 hz
      have fin : ∀ u, Holds l m false u (fun i => (Mont.exportInt m.p v.2 : ℤ) * F i) →
          Rep m.p m.N (2 ^ l) u (fun i => digit (modulusProd ms) m.N (F i)) := fun u hu =>
        scaled_digit gm.create hcop (pos_of_create hm) (List.mem_map.mpr ⟨m, hmem, rfl⟩) h3
          ((coeffsAre_iff gm.good).mp hu)
      rw [r1, Outcome.bind_ok]
      cases hb : X.ntt with
      | true =>
        rw [hb] at r2
        obtain ⟨u, u1, u2⟩ := r2.inverse gm
        exact ⟨u, by simpa using u1, fin u u2⟩
      | false =>
        rw [hb] at r2
        exact ⟨r, by simp, fin r r2⟩)
    (forall₂_mem (forall₂_zip hX.2 hi))
  obtain ⟨rs, r1, r2⟩ := perModulus_ok
    (f := fun pj j => accumulate
      (if b then Convert.convertModulusBalanced else Convert.convertModulus) pj.p
        (entry hatMod j) 0 ms scaled (List.replicate (2 ^ l) (Mont.importZero pj.p)))
    (R := fun m v => Holds l m false v (fun i => crtSum b (ms.map (·.N)) (F i)))
    (fun pj j h => by
      obtain ⟨r, r1, r2⟩ := accumulate_hats hm ho b s2 ht h
      refine ⟨r, r1, ?_⟩
      show CoeffsAre _ _ _ _
      exact (coeffsAre_iff (good_of_create (ho pj (List.mem_of_getElem? h)))).mpr r2)
    (forall₂_range outs)
  refine ⟨⟨l, rs, false⟩, ?_, rfl, rfl, r2⟩
  unfold approxSwitchBasis
  rw [if_neg (by simpa using hX.len), if_neg (by simpa using hno),
    if_neg (by rw [← hX.len, hi.length_eq]; simp), if_neg (by rw [← hX.len, ht.length_eq]; simp),
    hX.1]
  unfold shl1
  rw [if_pos (by omega), Outcome.bind_ok, s1, Outcome.bind_ok, r1]
  rfl

/-! ### The estimates -/

theorem column_ok {Q : ℕ} {Z : Fin n → ℤ} {vs : List (List ℕ)}
    (hs : List.Forall₂ (fun m v => MParams.create w m.N = .ok m.p ∧
      Rep m.p m.N n v (fun i => digit Q m.N (Z i))) ms vs) (k : Fin n) :
    column ms vs k = .ok (ms.map fun m => ((digit Q m.N (Z k)).val, m.N)) := by
  induction hs with
  | nil => rfl
  | @cons m v ms vs h _ ih =>
    have g := good_of_create h.1
    have e : Mont.exportInt m.p (v.getD k 0) = (digit Q m.N (Z k)).val := by
      rw [← h.2.val k]; exact export_eq_val g (h.2.le k k.2)
    unfold column
    rw [rd_getD 0 (by rw [h.2.len]; exact k.2), Outcome.bind_ok, ih, Outcome.bind_ok, e]
    rfl

/-- The estimate for the value `z`. -/
noncomputable def estOf (est : Estimate) (ns : List ℕ) (z : ℤ) : ℕ :=
  est (ns.map fun n => ((digit ns.prod n z).val, n))

theorem estimates_ok {est : Estimate} {Z : Fin n → ℤ} {vs : List (List ℕ)}
    (hs : List.Forall₂ (fun m v => MParams.create w m.N = .ok m.p ∧
      Rep m.p m.N n v (fun i => digit (modulusProd ms) m.N (Z i))) ms vs) :
    ∃ us, estimates est ms vs n = .ok us ∧ us.length = n ∧
      ∀ i : Fin n, us.getD i 0 = estOf est (ms.map (·.N)) (Z i) := by
  refine ⟨_, mapM_ok' _ (fun k => if h : k < n then estOf est (ms.map (·.N)) (Z ⟨k, h⟩) else 0) _
    (fun k hk => ?_), by simp, fun i => ?_⟩
  · have hk := List.mem_range.mp hk
    rw [column_ok hs ⟨k, hk⟩, dif_pos hk, Outcome.bind_ok]
    unfold estOf
    rw [List.map_map]
    rfl
  · rw [List.getD_eq_getElem _ _ (by simp), List.getElem_map, List.getElem_range, dif_pos i.2]

/-- What is left after subtracting the estimated multiple of `Q`. -/
noncomputable def remainder (est : Estimate) (ns : List ℕ) (z : ℤ) : ℤ :=
  crtSum false ns z - estOf est ns z * (ns.prod : ℤ)

theorem within_mono {k k' : ℕ} {ε : ℚ} {est : Estimate} (he : EstimateWithin k ε est) (h : k' ≤ k) :
    EstimateWithin k' ε est := fun c hc => he c (hc.trans h)

theorem remainder_bound {ns : List ℕ} (hpos : ∀ n ∈ ns, 0 < n) {ε : ℚ} {est : Estimate}
    (he : EstimateWithin ns.length ε est) (z : ℤ) :
    (|remainder est ns z| : ℚ) ≤ (1 / 2 + ε) * ns.prod := by
  have hQ : (0 : ℚ) < ns.prod := by exact_mod_cast List.prod_pos (fun m hm => hpos m hm)
  have h1 := crt_sum_div hpos (fun n => ((digit ns.prod n z).val : ℤ)) ns (fun _ h => h)
  have h2 := he (ns.map fun n => ((digit ns.prod n z).val, n)) (by simp) (fun xq hx => by
    obtain ⟨n, hn, rfl⟩ := List.mem_map.mp hx
    haveI : NeZero n := ⟨by have := hpos n hn; omega⟩
    exact ZMod.val_lt _)
  rw [List.map_map] at h2
  have e : (crtSum false ns z : ℚ) / ns.prod =
      (ns.map ((fun xq : ℕ × ℕ => (xq.1 : ℚ) / xq.2) ∘ fun n => ((digit ns.prod n z).val, n))).sum :=
    h1
  rw [← e] at h2
  have h3 : (remainder est ns z : ℚ) = -(((estOf est ns z : ℕ) : ℚ) - crtSum false ns z / ns.prod) *
      ns.prod := by
    unfold remainder
    rw [neg_mul, sub_mul, div_mul_cancel₀ _ hQ.ne', Int.cast_sub, Int.cast_mul, Int.cast_natCast,
      Int.cast_natCast]
    ring
  rw [h3, abs_mul, abs_neg, abs_of_pos hQ]
  exact mul_le_mul_of_nonneg_right h2 hQ.le

theorem crtSum_dvd {ns : List ℕ} (hcop : ns.Pairwise Nat.Coprime) (hpos : ∀ n ∈ ns, 0 < n)
    (b : Bool) (z : ℤ) : (ns.prod : ℤ) ∣ crtSum b ns z - z :=
  crt_sum hcop hpos z _ fun n hn => by
    haveI : NeZero n := ⟨by have := hpos n hn; omega⟩
    exact rdigit_cast b _ z

theorem remainder_dvd {ns : List ℕ} (hcop : ns.Pairwise Nat.Coprime) (hpos : ∀ n ∈ ns, 0 < n)
    (est : Estimate) (z : ℤ) : (ns.prod : ℤ) ∣ remainder est ns z - z := by
  have h := crtSum_dvd hcop hpos false z
  have : remainder est ns z - z = (crtSum false ns z - z) - estOf est ns z * (ns.prod : ℤ) := by
    unfold remainder; ring
  rw [this]
  exact dvd_sub h (Dvd.intro_left _ rfl)

/-- Two congruent integers with small absolute values are equal. -/
theorem eq_of_margin {Q : ℕ} {a b : ℤ} {ε : ℚ} (h1 : (Q : ℤ) ∣ a - b)
    (h2 : (|a| : ℚ) ≤ (1 / 2 + ε) * Q) (h3 : (|b| : ℚ) < (1 / 2 - ε) * Q) : a = b := by
  have h4 : (|a - b| : ℚ) < Q := by
    have := abs_sub (a : ℚ) b
    linarith
  have h5 : |a - b| < (Q : ℤ) := by exact_mod_cast h4
  have := Int.eq_zero_of_abs_lt_dvd h1 h5
  omega

theorem crtSum_range {ns : List ℕ} (hpos : ∀ n ∈ ns, 0 < n) (hne : ns ≠ []) (z : ℤ) :
    0 ≤ crtSum false ns z ∧ crtSum false ns z < ns.length * ns.prod := by
  have hd : ∀ n ∈ ns, (((digit ns.prod n z).val : ℕ) : ℤ) < n := fun n hn => by
    haveI : NeZero n := ⟨by have := hpos n hn; omega⟩
    exact_mod_cast ZMod.val_lt _
  exact ⟨crt_sum_nonneg (fun n => (((digit ns.prod n z).val : ℕ) : ℤ)) (fun n _ => by positivity),
    crt_sum_lt hpos (fun n => (((digit ns.prod n z).val : ℕ) : ℤ)) hd ns hne (fun _ h => h)⟩

theorem crtSum_balanced {ns : List ℕ} (hodd : ∀ n ∈ ns, n % 2 = 1) (hne : ns ≠ []) (z : ℤ) :
    2 * |crtSum true ns z| < ns.length * ns.prod := by
  have hpos : ∀ n ∈ ns, 0 < n := fun n hn => by have := hodd n hn; omega
  refine crt_sum_abs hpos (fun n => centered n (digit ns.prod n z)) (fun n hn => ?_) ns hne
    (fun _ h => h)
  haveI : NeZero n := ⟨by have := hpos n hn; omega⟩
  have hb := centered_bound n (digit ns.prod n z)
  have ho := hodd n hn
  have h2 : |2 * centered n (digit ns.prod n z)| < n := abs_lt.mpr ⟨hb.1, by omega⟩
  rwa [abs_mul, abs_two] at h2

theorem estOf_le {ns : List ℕ} (hpos : ∀ n ∈ ns, 0 < n) (hne : ns ≠ []) {ε : ℚ} {est : Estimate}
    (he : EstimateWithin ns.length ε est) (hε : ε < 1 / 2) (z : ℤ) : estOf est ns z ≤ ns.length := by
  have hQ : (0 : ℚ) < ns.prod := by exact_mod_cast List.prod_pos (fun m hm => hpos m hm)
  have h1 := remainder_bound hpos he z
  have h2 : (crtSum false ns z : ℚ) < ns.length * ns.prod := by
    have := Int.cast_lt (R := ℚ).mpr (crtSum_range hpos hne z).2
    rwa [Int.cast_mul, Int.cast_natCast, Int.cast_natCast] at this
  have h3 : (remainder est ns z : ℚ) = crtSum false ns z - estOf est ns z * (ns.prod : ℚ) := by
    unfold remainder
    rw [Int.cast_sub, Int.cast_mul, Int.cast_natCast, Int.cast_natCast]
  rw [h3] at h1
  have h4 := (abs_le.mp h1).1
  have h5 : (estOf est ns z : ℚ) * ns.prod < (ns.length + 1) * ns.prod := by nlinarith
  have h6 : (estOf est ns z : ℚ) < ns.length + 1 := lt_of_mul_lt_mul_right h5 hQ.le
  have : estOf est ns z < ns.length + 1 := by exact_mod_cast h6
  omega

theorem zip_take {α β : Type} {a : List α} {b : List β} {k : ℕ} (h : a.length = k) :
    a.zip b = a.zip (b.take k) := by
  subst h
  induction a generalizing b with
  | nil => rfl
  | cons x a ih =>
    cases b with
    | nil => rfl
    | cons y b => rw [List.length_cons, List.take_succ_cons, List.zip_cons_cons, List.zip_cons_cons, ← ih]

theorem entry_take (t : List (List ℕ)) (j i k : ℕ) (h : i < k) : entry t j i = entry (t.take k) j i := by
  unfold entry rd
  rw [List.getElem?_take_of_lt h]

/-- The subtracted multiples. -/
theorem us_rep {pj : Modulus} (hp : MParams.create w pj.N = .ok pj.p) {us : List ℕ} {E : Fin n → ℕ}
    (h1 : us.length = n) (h2 : ∀ i : Fin n, us.getD i 0 = E i) (h3 : ∀ i, E i < 2 ^ w) {a : ℕ} {z : ℤ}
    (ha : a ≤ pj.N) (hz : res pj.p pj.N a = (z : ZMod pj.N)) :
    Rep pj.p pj.N n (us.map fun u => Mont.mul pj.p (Mont.importInt pj.p u) a)
      (modq pj.N fun i => (E i : ℤ) * z) := by
  have g := good_of_create hp
  have e : ∀ i < n, ∃ h : i < n, (us.map fun u => Mont.mul pj.p (Mont.importInt pj.p u) a).getD i 0 =
      Mont.mul pj.p (Mont.importInt pj.p (E ⟨i, h⟩)) a := fun i hi => ⟨hi, by
    rw [getD_map' _ (by omega), h2 ⟨i, hi⟩]⟩
  refine ⟨by simp [h1], fun i hi => ?_, fun i => ?_⟩
  · obtain ⟨h, e⟩ := e i hi
    rw [e]
    exact (mul_lt g (importInt_lt g _ (h3 _)).le ha).le
  · obtain ⟨h, e⟩ := e i i.2
    rw [e, res_mul g (importInt_lt g _ (h3 _)).le ha, res_import g (h3 _), hz]
    simp [modq]

theorem us_rep' {pj : Modulus} (hp : MParams.create w pj.N = .ok pj.p) {us : List ℕ} {E : Fin n → ℕ}
    (h1 : us.length = n) (h2 : ∀ i : Fin n, us.getD i 0 = E i) (h3 : ∀ i, E i < 2 ^ w) :
    Rep pj.p pj.N n (us.map (Mont.importInt pj.p)) (modq pj.N fun i => (E i : ℤ)) := by
  have g := good_of_create hp
  have e : ∀ i < n, ∃ h : i < n, (us.map (Mont.importInt pj.p)).getD i 0 =
      Mont.importInt pj.p (E ⟨i, h⟩) := fun i hi => ⟨hi, by
    rw [getD_map' _ (by omega), h2 ⟨i, hi⟩]⟩
  refine ⟨by simp [h1], fun i hi => ?_, fun i => ?_⟩
  · obtain ⟨h, e⟩ := e i hi
    rw [e]
    exact (importInt_lt g _ (h3 _)).le
  · obtain ⟨h, e⟩ := e i i.2
    rw [e, res_import g (h3 _)]
    simp [modq]

theorem repr_switchBasis (hm : ∀ m ∈ ms, MParams.create w m.N = .ok m.p)
    (ho : ∀ p ∈ outs, MParams.create w p.N = .ok p.p)
    (hcop : (ms.map (·.N)).Pairwise Nat.Coprime) (hne : ms ≠ []) (hno : outs ≠ []) (hl : l ≤ 30)
    (hX : Represents l ms X F) (hb : X.ntt = false) {hatInv qMod : List ℕ} {hatMod : List (List ℕ)}
    (hi : HatInvs ms (hatInv.take ms.length)) (ht : HatResidues ms outs (hatMod.take ms.length))
    (hq : RnsIntIs outs qMod (modulusProd ms)) {ε : ℚ} {est : Estimate} (he : EstimateWithin ms.length ε est)
    (hε : ε < 1 / 2) (hw : ms.length < 2 ^ w) :
    ∃ r, switchBasis est ms outs hatInv hatMod qMod X = .ok r ∧ r.ntt = false ∧
      Represents l outs r (fun i => remainder est (ms.map (·.N)) (F i)) := by
  have hpos := pos_of_create hm
  have hne' : ms.map (·.N) ≠ [] := by simpa using hne
  have hE : ∀ i, estOf est (ms.map (·.N)) (F i) < 2 ^ w := fun i => by
    have := estOf_le hpos hne' (by rwa [List.length_map]) hε (F i)
    rw [List.length_map] at this; omega
  obtain ⟨scaled, s1, s2⟩ := perModulus_ok
    (f := fun m (vc : List ℕ × ℕ) => Poly.mulScalar m.p vc.1 vc.2)
    (R := fun m v => MParams.create w m.N = .ok m.p ∧
      Rep m.p m.N (2 ^ l) v (fun i => digit (modulusProd ms) m.N (F i)))
    (fun m v h => by
      obtain ⟨hmem, h1, h2, h3⟩ : m ∈ ms ∧ Holds l m X.ntt v.1 F ∧ v.2 ≤ m.N ∧
        (m.N : ℤ) ∣ Mont.exportInt m.p v.2 * (modulusProd ms / m.N : ℕ) - 1 := h
      have g := good_of_create (hm m hmem)
      rw [hb] at h1
      obtain ⟨r, r1, r2⟩ := ((coeffsAre_iff g).mp h1).mulScalar g h2
      refine ⟨r, by unfold Poly.mulScalar; rw [r1]; rfl, hm m hmem,
        scaled_digit (hm m hmem) hcop hpos (List.mem_map.mpr ⟨m, hmem, rfl⟩) h3 (r2.congr ?_)⟩
      funext i
      rw [← res_export g h2]
      simp only [modq]
      push_cast
      rfl)
    (forall₂_mem (forall₂_zip hX.2 hi))
  obtain ⟨us, u1, u2, u3⟩ := estimates_ok (est := est) s2
  obtain ⟨rs, r1, r2⟩ := perModulus_ok
    (f := fun pj (jq : ℕ × ℕ) => (do
      let out ← accumulate Convert.convertModulus pj.p (entry hatMod jq.1) 0 ms scaled
        (List.replicate (2 ^ l) (Mont.importZero pj.p))
      Poly.sub pj.p out (us.map fun u => Mont.mul pj.p (Mont.importInt pj.p u) jq.2) :
        Outcome (List ℕ)))
    (R := fun m v => Holds l m false v (fun i => remainder est (ms.map (·.N)) (F i)))
    (fun pj j h => by
      obtain ⟨h1, h2, h3⟩ : outs[j.1]? = some pj ∧ j.2 ≤ pj.N ∧
        (Mont.exportInt pj.p j.2 : ℤ) = (modulusProd ms : ℤ) % pj.N := h
      have hp := ho pj (List.mem_of_getElem? h1)
      have g := good_of_create hp
      obtain ⟨r, r1, r2⟩ := accumulate_ok (n := 2 ^ l) hp
        (conv := Convert.convertModulus)
        (T := fun m i => rdigit false (modulusProd ms) m.N (F i))
        (h := fun m => ((modulusProd ms / m.N : ℕ) : ℤ))
        (s2.imp fun m v h => convert_digit h.1 hp false h.2)
        (i0 := 0) (zero_rep (n := 2 ^ l) hp)
        (c := entry hatMod j.1) (fun k m hk => by
          rw [Nat.zero_add, entry_take _ _ _ ms.length (List.getElem?_eq_some_iff.mp hk).1]
          exact entry_ok ht ho h1 hk)
      obtain ⟨d, d1, d2⟩ := r2.sub g (us_rep hp u2 u3 hE h2 (res_of_export' hp h2 h3))
      refine ⟨d, ?_, ?_⟩
      · rw [r1, Outcome.bind_ok]
        unfold Poly.sub
        rw [d1]; rfl
      · show CoeffsAre _ _ _ _
        refine (coeffsAre_iff g).mpr (d2.congr ?_)
        rw [← modq_sub]
        congr 1
        funext i
        simp only [Pi.sub_apply, zero_add]
        unfold remainder crtSum
        rw [List.map_map]
        rfl)
    (forall₂_zip (forall₂_range outs) hq)
  have hl1 : (hatInv.take ms.length).length = ms.length := hi.length_eq.symm
  have hl2 : (hatMod.take ms.length).length = ms.length := ht.length_eq.symm
  rw [List.length_take] at hl1 hl2
  refine ⟨⟨l, rs, false⟩, ?_, rfl, rfl, r2⟩
  unfold switchBasis
  rw [if_neg (by simp [hb]), if_neg (by simpa using hX.len), if_neg (by simpa using hno),
    if_neg (by rw [← hX.len]; omega), if_neg (by rw [← hX.len]; omega),
    if_neg (by rw [hq.length_eq]; simp), zip_take (b := hatInv) hX.len.symm, s1, Outcome.bind_ok, hX.1]
  unfold shl1
  rw [if_pos (by omega), Outcome.bind_ok, u1, Outcome.bind_ok, r1]
  rfl

theorem list_sum_cast {α : Type} {N : ℕ} (L : List α) (f : α → ℤ) :
    (((L.map f).sum : ℤ) : ZMod N) = (L.map fun a => (f a : ZMod N)).sum := by
  induction L with
  | nil => simp
  | cons a L ih => rw [List.map_cons, List.sum_cons, List.map_cons, List.sum_cons, Int.cast_add, ih]

theorem list_sum_mul {α R : Type} [CommRing R] (L : List α) (f : α → R) (c : R) :
    c * (L.map f).sum = (L.map fun a => c * f a).sum := by
  induction L with
  | nil => simp
  | cons a L ih => rw [List.map_cons, List.sum_cons, List.map_cons, List.sum_cons, mul_add, ih]

theorem coprime_of_inv {m pj a : ℕ} (h : (pj : ℤ) ∣ a * m - 1) : Nat.Coprime m pj := by
  rw [← ZMod.isUnit_iff_coprime]
  have := (ZMod.intCast_zmod_eq_zero_iff_dvd _ pj).mpr h
  rw [Int.cast_sub, Int.cast_mul, Int.cast_natCast, Int.cast_natCast, Int.cast_one] at this
  exact IsUnit.of_mul_eq_one_right (a : ZMod pj) (by linear_combination this)

/-- The value modulo one output modulus. -/
theorem scale_congr {ns : List ℕ} {N : ℕ} (hN : ∀ n ∈ ns, Nat.Coprime n N) {z P G : ℤ}
    {est : Estimate} (hP : (N : ℤ) ∣ P)
    (hG : (ns.prod : ℤ) * G = P * z - remainder est ns (P * z)) :
    (((ns.map fun n => rdigit false ns.prod n (P * z) * -((((n : ZMod N)⁻¹).val : ℕ) : ℤ)).sum +
      estOf est ns (P * z) : ℤ) : ZMod N) = (G : ZMod N) := by
  rcases Nat.eq_zero_or_pos N with h0 | h0
  · subst h0
    have : ∀ n ∈ ns, n = 1 := fun n hn => by simpa using hN n hn
    have h1 : ns.prod = 1 := List.prod_eq_one this
    have hz : P = 0 := by simpa using hP
    subst hz
    rw [zero_mul, zero_sub, h1, Nat.cast_one, one_mul] at hG
    rw [hG]
    unfold remainder crtSum
    rw [zero_mul, h1]
    congr 1
    have : (ns.map fun n => rdigit false 1 n 0 * -((((n : ZMod 0)⁻¹).val : ℕ) : ℤ)).sum =
        -(ns.map fun n => rdigit false 1 n 0 * ((1 / n : ℕ) : ℤ)).sum := by
      have e : (ns.map fun n => rdigit false 1 n 0 * -((((n : ZMod 0)⁻¹).val : ℕ) : ℤ)) =
          ns.map fun n => 0 := by
        apply List.map_congr_left
        intro n hn
        unfold rdigit digit; simp
      have e' : (ns.map fun n => rdigit false 1 n 0 * ((1 / n : ℕ) : ℤ)) = ns.map fun n => 0 := by
        apply List.map_congr_left
        intro n hn
        unfold rdigit digit; simp
      rw [e, e']; simp
    rw [this]
    push_cast
    ring
  haveI : NeZero N := ⟨by omega⟩
  have hu : IsUnit ((ns.prod : ℕ) : ZMod N) :=
    (ZMod.isUnit_iff_coprime _ _).mpr (Nat.coprime_list_prod_left_iff.mpr hN)
  refine hu.mul_left_cancel ?_
  have hP0 : (P : ZMod N) = 0 := (ZMod.intCast_zmod_eq_zero_iff_dvd _ _).mpr hP
  have e1 : ((ns.prod : ℕ) : ZMod N) * (G : ZMod N) =
      -((crtSum false ns (P * z) : ℤ) : ZMod N) + estOf est ns (P * z) * ((ns.prod : ℕ) : ZMod N) := by
    have := congrArg (fun x : ℤ => (x : ZMod N)) hG
    unfold remainder at this
    rw [Int.cast_mul, Int.cast_natCast, Int.cast_sub, Int.cast_mul, hP0, Int.cast_sub, Int.cast_mul,
      Int.cast_natCast, Int.cast_natCast] at this
    rw [this]; ring
  rw [e1, Int.cast_add, Int.cast_natCast, mul_add, list_sum_cast, list_sum_mul]
  unfold crtSum
  rw [list_sum_cast]
  have e2 : ∀ n ∈ ns, ((ns.prod : ℕ) : ZMod N) *
      ((rdigit false ns.prod n (P * z) * -((((n : ZMod N)⁻¹).val : ℕ) : ℤ) : ℤ) : ZMod N) =
      (-1) * ((rdigit false ns.prod n (P * z) * ((ns.prod / n : ℕ) : ℤ) : ℤ) : ZMod N) := by
    intro n hn
    have hq : (n : ZMod N) * ((ns.prod / n : ℕ) : ZMod N) = ((ns.prod : ℕ) : ZMod N) := by
      rw [← Nat.cast_mul, Nat.mul_div_cancel' (List.dvd_prod hn)]
    have hi := ZMod.mul_inv_of_unit (n : ZMod N) ((ZMod.isUnit_iff_coprime _ _).mpr (hN n hn))
    rw [← hq, Int.cast_mul, Int.cast_mul, Int.cast_neg, Int.cast_natCast, Int.cast_natCast,
      ZMod.natCast_zmod_val]
    linear_combination (-((rdigit false ns.prod n (P * z) : ℤ) : ZMod N) *
      ((ns.prod / n : ℕ) : ZMod N)) * hi
  rw [List.map_congr_left e2, ← list_sum_mul]
  ring

theorem repr_scaleAndSwitch (hm : ∀ m ∈ ms, MParams.create w m.N = .ok m.p)
    (ho : ∀ p ∈ outs, MParams.create w p.N = .ok p.p)
    (hcop : (ms.map (·.N)).Pairwise Nat.Coprime) (hne : ms ≠ []) (hno : outs ≠ []) (hl : l ≤ 30)
    (hX : Represents l ms X F) (hb : X.ntt = false) {hatInv pMod : List ℕ} {qInvMod : List (List ℕ)}
    (hi : HatInvs ms (hatInv.take ms.length)) (ht : InvRows ms outs qInvMod) {P : ℤ}
    (hPd : ∀ p ∈ outs, (p.N : ℤ) ∣ P)
    (hq : RnsIntIs ms (pMod.take ms.length) P) {ε : ℚ} {est : Estimate}
    (he : EstimateWithin ms.length ε est) (hε : ε < 1 / 2) (hw : ms.length < 2 ^ w) {G : Fin (2 ^ l) → ℤ}
    (hG : ∀ i, (modulusProd ms : ℤ) * G i = P * F i - remainder est (ms.map (·.N)) (P * F i)) :
    ∃ r, scaleAndSwitchBasis est ms outs hatInv qInvMod pMod X = .ok r ∧ r.ntt = false ∧
      Represents l outs r G := by
  have hpos := pos_of_create hm
  have hne' : ms.map (·.N) ≠ [] := by simpa using hne
  have hE : ∀ i, estOf est (ms.map (·.N)) (P * F i) < 2 ^ w := fun i => by
    have := estOf_le hpos hne' (by rwa [List.length_map]) hε (P * F i)
    rw [List.length_map] at this; omega
  have hl1 : (hatInv.take ms.length).length = ms.length := hi.length_eq.symm
  have hl2 : (pMod.take ms.length).length = ms.length := hq.length_eq.symm
  obtain ⟨scaled, s1, s2⟩ := perModulus_ok
    (f := fun m (vc : List ℕ × (ℕ × ℕ)) => (do
      let v ← Poly.mulScalar m.p vc.1 vc.2.1
      Poly.mulScalar m.p v vc.2.2 : Outcome (List ℕ)))
    (R := fun m v => MParams.create w m.N = .ok m.p ∧
      Rep m.p m.N (2 ^ l) v (fun i => digit (modulusProd ms) m.N (P * F i)))
    (fun m v h => by
      obtain ⟨hmem, h1, ⟨h4, h5⟩, h2, h3⟩ : m ∈ ms ∧ Holds l m X.ntt v.1 F ∧
        (v.2.1 ≤ m.N ∧ (Mont.exportInt m.p v.2.1 : ℤ) = P % m.N) ∧ v.2.2 ≤ m.N ∧
        (m.N : ℤ) ∣ Mont.exportInt m.p v.2.2 * (modulusProd ms / m.N : ℕ) - 1 := h
      have g := good_of_create (hm m hmem)
      rw [hb] at h1
      obtain ⟨u, u1, u2⟩ := ((coeffsAre_iff g).mp h1).mulScalar g h4
      obtain ⟨r, r1, r2⟩ := u2.mulScalar g h2
      refine ⟨r, ?_, hm m hmem,
        scaled_digit (hm m hmem) hcop hpos (List.mem_map.mpr ⟨m, hmem, rfl⟩) h3 (r2.congr ?_)⟩
      · unfold Poly.mulScalar; rw [u1, copying_ok, Outcome.bind_ok, r1]; rfl
      · funext i
        rw [← res_export g h2, res_of_export' (hm m hmem) h4 h5]
        simp only [modq]
        push_cast
        rfl)
    (forall₂_mem (forall₂_zip hX.2 (forall₂_zip hq hi)))
  obtain ⟨us, u1, u2, u3⟩ := estimates_ok (est := est) s2
  obtain ⟨rs, r1, r2⟩ := perModulus_ok
    (f := fun pj (inv : List ℕ) => (do
      let out ← accumulate Convert.convertModulus pj.p
        (fun i => do let c ← rd inv i; return Mont.negate pj.p c) 0 ms scaled
        (List.replicate (2 ^ l) (Mont.importZero pj.p))
      Poly.add pj.p out (us.map (Mont.importInt pj.p)) : Outcome (List ℕ)))
    (R := fun m v => Holds l m false v G)
    (fun pj inv h => by
      obtain ⟨h1, h2⟩ : pj ∈ outs ∧ List.Forall₂ (fun m a => a ≤ pj.N ∧
        (pj.N : ℤ) ∣ Mont.exportInt pj.p a * m.N - 1) ms (inv.take ms.length) := h
      have hp := ho pj h1
      have g := good_of_create hp
      haveI := neZero_of_create hp
      obtain ⟨r, r1, r2⟩ := accumulate_ok (n := 2 ^ l) hp
        (conv := Convert.convertModulus)
        (T := fun m i => rdigit false (modulusProd ms) m.N (P * F i))
        (h := fun m => -((((m.N : ZMod pj.N)⁻¹).val : ℕ) : ℤ))
        (s2.imp fun m v h => convert_digit h.1 hp false h.2)
        (i0 := 0) (zero_rep (n := 2 ^ l) hp)
        (c := fun i => do let c ← rd inv i; return Mont.negate pj.p c) (fun k m hk => by
          obtain ⟨a, a1, a2, a3⟩ := forall₂_get h2 k m hk
          rw [List.getElem?_take_of_lt (List.getElem?_eq_some_iff.mp hk).1] at a1
          refine ⟨Mont.negate pj.p a, ?_, negate_le g a2, ?_⟩
          · rw [Nat.zero_add, rd_some a1]; rfl
          · have hu := ZMod.mul_inv_of_unit (m.N : ZMod pj.N)
              ((ZMod.isUnit_iff_coprime _ _).mpr (coprime_of_inv a3))
            have h3 := (ZMod.intCast_zmod_eq_zero_iff_dvd _ pj.N).mpr a3
            rw [Int.cast_sub, Int.cast_mul, Int.cast_natCast, Int.cast_natCast, Int.cast_one] at h3
            have h4 : ((Mont.exportInt pj.p a : ℕ) : ZMod pj.N) = res pj.p pj.N a := res_export g a2
            rw [res_negate g a2, Int.cast_neg, Int.cast_natCast, ZMod.natCast_zmod_val, ← h4]
            linear_combination ((Mont.exportInt pj.p a : ℕ) : ZMod pj.N) * hu -
              (m.N : ZMod pj.N)⁻¹ * h3)
      obtain ⟨d, d1, d2⟩ := r2.add g (us_rep' hp u2 u3 hE)
      refine ⟨d, ?_, ?_⟩
      · rw [r1, Outcome.bind_ok]
        unfold Poly.add
        rw [d1]; rfl
      · show CoeffsAre _ _ _ _
        refine (coeffsAre_iff g).mpr (d2.congr ?_)
        rw [← modq_add]
        funext i
        have := scale_congr (ns := ms.map (·.N)) (N := pj.N) (fun n hn => by
          obtain ⟨m, hm', rfl⟩ := List.mem_map.mp hn
          obtain ⟨a, _, _, a3⟩ := forall₂_mem_left h2 m hm'
          exact coprime_of_inv a3) (hPd pj h1) (hG i)
        rw [List.map_map] at this
        simp only [modq, Pi.add_apply, zero_add]
        exact this)
    (forall₂_mem ht)
  rw [List.length_take] at hl1 hl2
  refine ⟨⟨l, rs, false⟩, ?_, rfl, rfl, r2⟩
  have hzip : X.coeffs.zip (pMod.zip hatInv) =
      X.coeffs.zip ((pMod.take ms.length).zip (hatInv.take ms.length)) := by
    rw [zip_take (k := ms.length) hX.len.symm]
    exact congrArg _ List.take_zipWith
  unfold scaleAndSwitchBasis
  rw [if_neg (by simp [hb]), if_neg (by simpa using hX.len), if_neg (by simpa using hno),
    if_neg (by rw [← hX.len]; omega), if_neg (by rw [ht.length_eq]; simp),
    if_neg (by rw [← hX.len]; omega), hzip, s1, Outcome.bind_ok, hX.1]
  unfold shl1
  rw [if_pos (by omega), Outcome.bind_ok, u1, Outcome.bind_ok, r1]
  rfl

end
end Shell.Rns
