import Verif.Lemmas.RnsKeySwitch
import Verif.Props.RnsGadget
/-!
# C52: Galois keys

The relinearization keys are in `Verif.Props.RnsRelin`.
-/

namespace Shell
open Spec Rns
variable {σ τ : Type} {w l : ℕ} {S Φ : Fin (2 ^ l) → ℤ}

/-- **C52.** A Galois key that was created with the secret key `k` for `power` encrypts the multiples of
`S(X^power)` by the gadget, with errors of at most `2 variance`; the power is odd and below `2n`. -/
theorem c52_galois_create (Gp : Gen τ) (G : Gen σ) (hG : Words G) {fuel : ℕ} {k : RKey} (hk : GoodKey w l k S)
    {g : RGadget} {Gs : List ℤ} {logs : List ℕ} (hgad : GadgetFor l k.ms g Gs logs) {power v : ℤ}
    (hv : ∀ m ∈ k.ms.head?, 2 * v ≤ m.N) {prng : PrngType} {t : ℕ} (ht : t < 2 ^ w) {sp : τ} {s : σ}
    {key : RGalois} (h : RGalois.create Gp G fuel k power v g prng t sp s = .ok key) :
    key.power = power ∧ key.ms = k.ms ∧ power % 2 = 1 ∧ power < 2 * 2 ^ l ∧ 0 < v ∧
      GaloisFor l S t (2 * v) key Gs logs := by
  have hlog : k.key.logN = l := hk.key.2.1
  unfold RGalois.create at h
  obtain ⟨_, h⟩ | ⟨_, h⟩ := ite_eq_iff.mp h
  · cases h
  obtain ⟨⟨pads, sp'⟩, h1, h⟩ := Outcome.bind_eq_ok.mp h
  rw [hlog] at h1
  obtain ⟨p1, p2⟩ := samplePads_ok Gp hk.good hk.coprime h1
  dsimp only at h
  unfold RGalois.createWithPad at h
  obtain ⟨n, h2, h⟩ := Outcome.bind_eq_ok.mp h
  have hn : n = 2 ^ l ∧ l < 31 := by
    unfold shl1 at h2
    obtain ⟨hl, h2⟩ | ⟨_, h2⟩ := ite_eq_iff.mp h2
    · rw [hlog] at h2 hl
      exact ⟨(Outcome.ok.inj h2).symm, hl⟩
    · cases h2
  obtain ⟨rfl, hl31⟩ := hn
  obtain ⟨_, h⟩ | ⟨c1, h⟩ := ite_eq_iff.mp h
  · cases h
  obtain ⟨_, h⟩ | ⟨c2, h⟩ := ite_eq_iff.mp h
  · cases h
  obtain ⟨_, h⟩ | ⟨c3, h⟩ := ite_eq_iff.mp h
  · cases h
  obtain ⟨_, h⟩ | ⟨c4, h⟩ := ite_eq_iff.mp h
  · cases h
  obtain ⟨_, h⟩ | ⟨c5, h⟩ := ite_eq_iff.mp h
  · cases h
  have hl29 : l ≤ 29 := by
    by_contra hc
    have : (2 : ℕ) ^ 30 ≤ 2 ^ l := Nat.pow_le_pow_right (by norm_num) (by omega)
    omega
  have hpos : 0 ≤ power := by omega
  obtain ⟨p, rfl⟩ := Int.eq_ofNat_of_zero_le hpos
  have hodd : p % 2 = 1 := by
    have : ¬ ((p : ℤ).tmod 2 = 0) := fun hh => c1 (Or.inr hh)
    rw [Int.tmod_eq_emod_of_nonneg hpos] at this
    omega
  have hlt : p < 2 * 2 ^ l := by
    have : (p : ℤ) < ((2 * 2 ^ l : ℕ) : ℤ) := by push_cast; push_cast at c3; omega
    exact_mod_cast this
  obtain ⟨src, s1, s2, s3⟩ := repr_substitute hl29 hk.good hk.key.2 hk.key.1 hodd hlt
  rw [s1, Outcome.bind_ok, if_neg (by rw [hgad.dim]; omega), List.take_of_length_le (by rw [hgad.dim]),
    Outcome.bind_ok] at h
  obtain ⟨⟨bs, rest, s'⟩, h3, h⟩ := Outcome.bind_eq_ok.mp h
  cases h
  obtain ⟨as, Es, a1, a2, a3⟩ := keyEntries_ok G hG hk hv ht ⟨s2, s3⟩ hgad.comps p2 h3
  obtain ⟨_, _, _, _, l1, _, _, _⟩ := keyColumns_polys a2
  have hrest : rest = [] := by
    have e1 := congrArg List.length a1
    rw [p1, List.length_append, l1, gadgetMultiples, List.length_map, ← hgad.comps.length_eq, hgad.dim] at e1
    exact List.length_eq_zero_iff.mp (by omega)
  rw [hrest, List.append_nil] at a1
  subst a1
  exact ⟨rfl, rfl, by omega, by exact_mod_cast hlt, by omega, ⟨hpos, hgad, Es, a2, a3⟩⟩

/-- Applied to a ciphertext under `S(X^power)` that stands for `Φ`, the key returns a ciphertext of degree 1 under `S` that
stands for `Φ + t R`, where `R` is at most any bound on the sums of products of digits and errors. -/
theorem galois_apply_core {key : RGalois} {t K : ℤ} {Gs : List ℤ} {logs : List ℕ} {Es : List (Fin (2 ^ l) → ℤ)}
    (hg : ∀ m ∈ key.ms, GoodModulus w l m) (hne : key.ms ≠ []) (hgad : GadgetFor l key.ms key.gadget Gs logs)
    (hcol : KeyColumns l key.ms t S (gadgetMultiples Gs (substPow key.power.toNat S)) key.as key.bs Es)
    (hK : ∀ Ds, List.Forall₂ (fun b (D : Fin (2 ^ l) → ℤ) => ∀ i, |D i| < 2 ^ b) logs Ds → ∀ i, |sumMul Ds Es i| ≤ K)
    {x : RCt} (hms : x.ms = key.ms) (hp : x.power = key.power) (h2 : x.c.length = 2) (hx : Encrypts l S x Φ) :
    ∃ (r : RCt) (R : Fin (2 ^ l) → ℤ), key.applyTo x = .ok r ∧ r.ms = x.ms ∧ r.power = 1 ∧ r.c.length = 2 ∧
      Encrypts l S r (fun i => Φ i + t * R i) ∧ ∀ i, |R i| ≤ K := by
  obtain ⟨_, Cs, hC, hphi⟩ := hx
  obtain ⟨c0₀, c1, C0, C1, e1, rfl, hc0, hc1⟩ := components_two hC h2
  obtain ⟨As, Bs, hA, hBs, la, lb, le, hsum⟩ := keyColumns_polys hcol
  have hGl : (gadgetMultiples Gs (substPow key.power.toNat S)).length = key.gadget.dimension := by
    rw [gadgetMultiples, List.length_map, ← hgad.comps.length_eq, hgad.dim]
  rw [hms] at hc0 hc1 hphi
  obtain ⟨d1, d2, d3, d4⟩ := toCoeff_ntt hg hc1
  obtain ⟨xs, Ds, x1, x2, x3, x4, x5⟩ := hgad.decompose d1 C1 d3 d4
  obtain ⟨ys, y1, y2⟩ := mapM_rel (f := toNtt key.ms) (g := fun D => D) (R := Comp l key.ms)
    (fun a D ⟨ha, hD⟩ => by
      obtain ⟨r, r1, r2, r3⟩ := repr_toNtt hg hD ha
      exact ⟨r, r1, r2, r3⟩) x2
  rw [List.map_id'] at y2
  have hxl : xs.length = key.gadget.dimension := by
    rw [x2.length_eq, x4, ← hgad.comps.length_eq, hgad.dim]
  obtain ⟨z, z1, z2, z3⟩ := repr_createZero hg hne true
  obtain ⟨b, b1, b2⟩ := mulAddAll_ok hg y2 hBs (by rw [lb, hGl, y2.length_eq, ← x2.length_eq, hxl]) ⟨z2, z3⟩
  obtain ⟨a, a1, a2⟩ := mulAddAll_ok hg y2 hA (by rw [la, hGl, y2.length_eq, ← x2.length_eq, hxl]) ⟨z2, z3⟩
  obtain ⟨r, r1, r2, r3⟩ := repr_add hg b2.2 hc0.2 (by rw [b2.1, hc0.1])
  refine ⟨⟨[r, a], key.ms, 1⟩, sumMul Ds Es, ?_, hms.symm, rfl, rfl,
    encrypts_fresh ⟨r2.trans b2.1, r3⟩ a2 ?_, hK Ds x3⟩
  · unfold RGalois.applyTo RGalois.check RCt.component
    rw [if_neg (by simpa using hp), if_neg (by rw [hms]; simp), if_neg (by omega)]
    rw [e1]
    show (do
      let c1 ← Outcome.ok c1
      let c1 ← (if c1.ntt then toCoeff key.ms c1 else .ok c1 : Outcome RPoly)
      let digits ← key.gadget.decompose c1 key.ms
      let zero ← createZero c1.logN key.ms true
      let bs ← firstK key.bs key.gadget.dimension
      let as ← firstK key.as key.gadget.dimension
      let digits ← firstK digits key.gadget.dimension
      let digits ← digits.mapM (toNtt key.ms)
      let c0 ← mulAddAll key.ms digits bs zero
      let c1 ← mulAddAll key.ms digits as zero
      let d ← Outcome.ok c0₀
      let c0 ← add key.ms c0 d
      return (⟨[c0, c1], key.ms, 1⟩ : RCt)) = _
    rw [Outcome.bind_ok, d2, Outcome.bind_ok, x1, Outcome.bind_ok, d4.1, z1, Outcome.bind_ok,
      firstK_ok (by rw [lb, hGl]), Outcome.bind_ok, firstK_ok (by rw [la, hGl]), Outcome.bind_ok,
      firstK_ok hxl, Outcome.bind_ok, y1, Outcome.bind_ok, b1, Outcome.bind_ok, a1, Outcome.bind_ok,
      Outcome.bind_ok, r1]
    rfl
  · have h6 := hsum 0 Ds
    simp only [List.drop_zero] at h6
    have h7 := sumMul_multiples (substPow key.power.toNat S) Gs Ds [] (by rw [x4])
    rw [List.append_nil] at h7
    rw [h7] at h6
    rw [hp] at hphi
    simp only [innerProduct, NR.negMul_zero, add_zero] at hphi
    have h8 : CongMod (modulusProd key.ms) (negMul (combine Gs Ds) (substPow key.power.toNat S))
        (negMul (substPow key.power.toNat S) C1) := by
      rw [NR.negMul_comm]
      exact (CongMod.refl _).mul x5
    have e : 0 + sumMul Ds Bs + C0 + negMul S (0 + sumMul Ds As) =
        C0 + negMul (combine Gs Ds) (substPow key.power.toNat S) + fun i => t * sumMul Ds Es i := by
      rw [zero_add, zero_add, NR.negMul_comm S]
      calc _ = C0 + (sumMul Ds Bs + negMul (sumMul Ds As) S) := by abel
        _ = _ := by rw [h6]; abel
    rw [e]
    have h9 := (((CongMod.refl C0).add h8).trans hphi).add
      (CongMod.refl (Q := modulusProd key.ms) (fun i => t * sumMul Ds Es i))
    exact h9

/-- **C52.** Applied to a ciphertext under `S(X^power)` that stands for `Φ`, the key returns a ciphertext of
degree 1 under `S` that stands for `Φ + t R`, where `R` is at most the sum of the bases times `n` times the
bound on the errors. -/
theorem c52_galois_apply {key : RGalois} {t B : ℤ} {Gs : List ℤ} {logs : List ℕ}
    (hg : ∀ m ∈ key.ms, GoodModulus w l m) (hne : key.ms ≠ []) (hB : 0 ≤ B)
    (hkey : GaloisFor l S t B key Gs logs) {x : RCt} (hms : x.ms = key.ms) (hp : x.power = key.power)
    (h2 : x.c.length = 2) (hx : Encrypts l S x Φ) :
    ∃ (r : RCt) (R : Fin (2 ^ l) → ℤ), key.applyTo x = .ok r ∧ r.ms = x.ms ∧ r.power = 1 ∧ r.c.length = 2 ∧
      Encrypts l S r (fun i => Φ i + t * R i) ∧
      ∀ i, |R i| ≤ 2 ^ l * B * (logs.map fun b => (2 : ℤ) ^ b).sum := by
  obtain ⟨Es, hcol, hE⟩ := hkey.columns
  exact galois_apply_core hg hne hkey.gadget hcol (fun Ds hD => sumMul_bound hB hD hE) hms hp h2 hx

/-- **C52.** `Substitute` followed by the key for the same power returns a ciphertext of degree 1 under `S`
that stands for `Φ(X^p) + t R`. -/
theorem c52_rotate {key : RGalois} {t B : ℤ} {Gs : List ℤ} {logs : List ℕ} (hl : l ≤ 15)
    (hg : ∀ m ∈ key.ms, GoodModulus w l m) (hne : key.ms ≠ []) (hB : 0 ≤ B)
    (hkey : GaloisFor l S t B key Gs logs) {x : RCt} (hms : x.ms = key.ms) {p : ℕ} (hpow : key.power = p)
    (hodd : p % 2 = 1) (hp : p < 2 * 2 ^ l) (h1 : x.power = 1) (h2 : x.c.length = 2) (hx : Encrypts l S x Φ) :
    ∃ (y r : RCt) (R : Fin (2 ^ l) → ℤ), x.substitute p = .ok y ∧ key.applyTo y = .ok r ∧ r.ms = x.ms ∧
      r.power = 1 ∧ r.c.length = 2 ∧ Encrypts l S r (fun i => substPow p Φ i + t * R i) ∧
      ∀ i, |R i| ≤ 2 ^ l * B * (logs.map fun b => (2 : ℤ) ^ b).sum := by
  have h0 : x.c ≠ [] := by intro h; rw [h] at h2; simp at h2
  have hpw : (p : ℤ) < 2 ^ 31 := by
    have : (2 : ℕ) ^ l ≤ 2 ^ 15 := Nat.pow_le_pow_right (by norm_num) hl
    have : (p : ℤ) < ((2 * 2 ^ l : ℕ) : ℤ) := by exact_mod_cast hp
    push_cast at this
    have h3 : ((2 ^ l : ℕ) : ℤ) ≤ 2 ^ 15 := by exact_mod_cast ‹(2 : ℕ) ^ l ≤ 2 ^ 15›
    push_cast at h3
    norm_num at *
    linarith
  obtain ⟨y, y1, y2, y3, y4, y5⟩ := c56_substitute_partial hl (hms ▸ hg) h0 p hodd hp
    (by rw [h1, one_mul]; exact hpw) hx
  have y3' : y.power = key.power := by
    rw [y3, h1, hpow, one_mul]
    exact Int.emod_eq_of_lt (by positivity) (by exact_mod_cast hp)
  obtain ⟨r, R, r1, r2, r3⟩ := c52_galois_apply hg hne hB hkey (y2.trans hms) y3' (y4.trans h2) y5
  exact ⟨y, r, R, y1, r1, r2.trans y2, r3⟩

/-! ### Rejected arguments -/

/-- **C52.** A Galois key rejects ciphertexts for another power, with another number of moduli, or that do
not have two components. -/
theorem c52_galois_rejects (key : RGalois) (x : RCt) (h : x.power ≠ key.power ∨
    x.ms.length ≠ key.ms.length ∨ x.c.length ≠ 2) : key.applyTo x = .err .invalidArgument := by
  have : key.check x = .err .invalidArgument := by
    unfold RGalois.check
    split_ifs with h1 h2 h3
    · rfl
    · rfl
    · rfl
    · tauto
  unfold RGalois.applyTo
  rw [this]
  rfl

/-- **C52.** Even, negative and too large powers and variances that are not positive are rejected. -/
theorem c52_galois_create_rejects (G : Gen σ) (pads : List RPoly) (k : RKey) (power v : ℤ) (g : RGadget)
    (prng : PrngType) (t : ℕ) (s : σ) (hl : k.key.logN ≤ 15)
    (h : power < 0 ∨ power % 2 = 0 ∨ power ≥ 2 * 2 ^ k.key.logN ∨ v ≤ 0 ∨ prng = .invalid) :
    RGalois.createWithPad G pads k power v g prng t s = .err .invalidArgument := by
  unfold RGalois.createWithPad shl1
  rw [if_pos (by omega), Outcome.bind_ok]
  have h15 : (2 : ℕ) ^ k.key.logN ≤ 2 ^ 15 := Nat.pow_le_pow_right (by norm_num) hl
  split_ifs with h1 h2 h3 h4 h5
  · rfl
  · norm_num at *; omega
  · rfl
  · rfl
  · rfl
  all_goals
    exfalso
    push_cast at h3
    rw [not_or] at h1
    rcases h with h | h | h | h | h
    · omega
    · rw [Int.tmod_eq_emod_of_nonneg (by omega)] at h1; omega
    · omega
    · omega
    · exact h5 h

/-- **C52.** Key components can be combined into a key only if their number is the dimension of the gadget. -/
theorem c52_from_components (as bs : List RPoly) (power : ℤ) (g : RGadget) (ms : List Modulus) :
    (as.length = g.dimension ∧ bs.length = g.dimension →
      RGalois.fromComponents as bs power g ms = .ok ⟨as, bs, g, power, ms⟩) ∧
    (¬ (as.length = g.dimension ∧ bs.length = g.dimension) →
      RGalois.fromComponents as bs power g ms = .err .invalidArgument) := by
  unfold RGalois.fromComponents
  constructor
  · intro h; rw [if_neg (by tauto)]
  · intro h; rw [if_pos (by tauto)]

/-! ### Deserialized keys -/

theorem samplePads_length (G : Gen τ) {fuel : ℕ} {logN : ℤ} {ms : List Modulus} : ∀ {k : ℕ} {s s' : τ}
    {as : List RPoly}, samplePads G fuel logN ms k s = .ok (as, s') → as.length = k := by
  intro k
  induction k with
  | zero => intro s s' as h; cases h; rfl
  | succ k ih =>
    intro s s' as h
    unfold samplePads at h
    obtain ⟨⟨a, s1⟩, h1, h⟩ := Outcome.bind_eq_ok.mp h
    obtain ⟨⟨as', s2⟩, h2, h⟩ := Outcome.bind_eq_ok.mp h
    cases h
    simp [ih h2]

/-- `Deserialize` keeps the number of polynomials of the message, whatever the dimension of the gadget. -/
theorem c52_deserialize_length (Gp : Gen τ) (start : List ℕ → τ) {fuel : ℕ} {x : SGalois} {g : RGadget}
    {ms : List Modulus} {key : RGalois} (h : RGalois.deserialize Gp start fuel x g ms = .ok key) :
    key.as.length = x.bs.length ∧ key.bs.length = x.bs.length ∧ key.gadget = g ∧ key.ms = ms ∧
      key.power = x.power := by
  unfold RGalois.deserialize at h
  obtain ⟨_, h⟩ | ⟨_, h⟩ := ite_eq_iff.mp h
  · cases h
  obtain ⟨bs, h1, h⟩ := Outcome.bind_eq_ok.mp h
  obtain ⟨b0, h2, h⟩ := Outcome.bind_eq_ok.mp h
  obtain ⟨_, h⟩ | ⟨_, h⟩ := ite_eq_iff.mp h
  · cases h
  obtain ⟨⟨as, s'⟩, h3, h⟩ := Outcome.bind_eq_ok.mp h
  cases h
  refine ⟨samplePads_length Gp h3, ?_, rfl, rfl, rfl⟩
  have : ∀ {L : List Serialized} {r : List RPoly}, L.mapM (Rns.deserialize ms) = .ok r → r.length = L.length := by
    intro L
    induction L with
    | nil => intro r h; cases h; rfl
    | cons a L ih =>
      intro r h
      rw [List.mapM_cons] at h
      obtain ⟨b, _, h⟩ := Outcome.bind_eq_ok.mp h
      obtain ⟨bs, h2, h⟩ := Outcome.bind_eq_ok.mp h
      cases h
      simp [ih h2]
  exact this h1

/-- **C52 fails for deserialized keys.** A key with fewer polynomials than the gadget has components, which
`Deserialize` does not reject (`c52_deserialize_length`), is read outside its bounds when it is applied. -/
theorem c52_short_key {key : RGalois} (hg : ∀ m ∈ key.ms, GoodModulus w l m) (hne : key.ms ≠ [])
    {Gs : List ℤ} {logs : List ℕ} (hgad : GadgetFor l key.ms key.gadget Gs logs)
    (hshort : key.bs.length < key.gadget.dimension) {x : RCt} (hms : x.ms = key.ms)
    (hp : x.power = key.power) (h2 : x.c.length = 2) (hx : Encrypts l S x Φ) :
    key.applyTo x = .ub .outOfBounds := by
  obtain ⟨_, Cs, hC, _⟩ := hx
  obtain ⟨c0₀, c1, C0, C1, e1, rfl, hc0, hc1⟩ := components_two hC h2
  rw [hms] at hc0 hc1
  obtain ⟨d1, d2, d3, d4⟩ := toCoeff_ntt hg hc1
  obtain ⟨xs, Ds, x1, _⟩ := hgad.decompose d1 C1 d3 d4
  obtain ⟨z, z1, z2, z3⟩ := repr_createZero hg hne true
  unfold RGalois.applyTo RGalois.check RCt.component
  rw [if_neg (by simpa using hp), if_neg (by rw [hms]; simp), if_neg (by omega)]
  rw [e1]
  show (do
    let c1 ← Outcome.ok c1
    let c1 ← (if c1.ntt then toCoeff key.ms c1 else .ok c1 : Outcome RPoly)
    let digits ← key.gadget.decompose c1 key.ms
    let zero ← createZero c1.logN key.ms true
    let bs ← firstK key.bs key.gadget.dimension
    let as ← firstK key.as key.gadget.dimension
    let digits ← firstK digits key.gadget.dimension
    let digits ← digits.mapM (toNtt key.ms)
    let c0 ← mulAddAll key.ms digits bs zero
    let c1 ← mulAddAll key.ms digits as zero
    let d ← Outcome.ok c0₀
    let c0 ← add key.ms c0 d
    return (⟨[c0, c1], key.ms, 1⟩ : RCt)) = _
  rw [Outcome.bind_ok, d2, Outcome.bind_ok, x1, Outcome.bind_ok, d4.1, z1, Outcome.bind_ok]
  unfold firstK
  rw [if_pos hshort]
  rfl

end Shell
