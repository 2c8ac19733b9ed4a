import Verif.Props.RnsKeySwitch
import Verif.Props.RnsSchemeExample
import Verif.Props.Transcription
import Verif.Model.LazyRns
/-!
# Property C60: serialized RNS objects deserialize to the same object
-/

namespace Shell
open Spec Rns Sampler

section
variable {σ τ : Type} {w l : ℕ} {ms : List Modulus}

/-- An RNS polynomial as the public functions make it: `2^l` words at most `q_i` for every modulus `q_i`. -/
def Spec.WellFormed (l : ℕ) (ms : List Modulus) (x : RPoly) : Prop :=
  x.logN = l ∧ List.Forall₂ (fun m v => v.length = 2 ^ l ∧ ∀ a ∈ v, a ≤ m.N) ms x.coeffs

/-- Every RNS polynomial that represents something is well-formed. -/
theorem wellFormed_of_represents {x : RPoly} {F : Fin (2 ^ l) → ℤ} (h : Represents l ms x F) : WellFormed l ms x := by
  refine ⟨h.1, h.2.imp fun m v hv => ?_⟩
  unfold Holds at hv
  split at hv
  · exact ⟨hv.1, hv.2.1⟩
  · exact ⟨hv.1, hv.2.1⟩

theorem serializeVectors_ok (hg : ∀ m ∈ ms, MParams.create w m.N = .ok m.p) (hw : w ≤ 128) (hw8 : 8 ≤ w)
    (hl15 : l ≤ 15) {vs : List (List ℕ)}
    (h : List.Forall₂ (fun m v => v.length = 2 ^ l ∧ ∀ a ∈ v, a ≤ m.N) ms vs) :
    ∃ ss, perModulus (fun m v => Mont.serializeVector m.p v) ms vs = .ok ss ∧ ss.length = ms.length ∧
      perModulus (fun m v => Mont.deserializeVector m.p ((2 ^ l : ℕ) : ℤ) v) ms ss = .ok vs := by
  induction h with
  | nil => exact ⟨[], rfl, rfl, rfl⟩
  | @cons m v ms vs h _ ih =>
    obtain ⟨ss, s1, s2, s3⟩ := ih fun m hm => hg m (List.mem_cons_of_mem _ hm)
    obtain ⟨s, t1, -, -, t2⟩ := (c10_round_trip (hg m (by simp)) hw hw8).1 v
      (fun e => by have := h.1; rw [e] at this; simp at this; have := Nat.two_pow_pos l; omega)
      (by rw [h.1]; exact Nat.pow_le_pow_right (by norm_num) hl15) h.2
    refine ⟨s :: ss, ?_, by simp [s2], ?_⟩
    · unfold perModulus
      simp only [t1, Outcome.bind_ok, s1]
      rfl
    · unfold perModulus
      rw [h.1] at t2
      simp only [t2, Outcome.bind_ok, s3]
      rfl

/-- **C60, polynomials.** An RNS polynomial with `2^l` coefficients, `0 < l ≤ 15`, in either form, survives. -/
theorem c60_polynomial (hg : ∀ m ∈ ms, MParams.create w m.N = .ok m.p) (hne : ms ≠ []) (hw : w ≤ 128) (hw8 : 8 ≤ w)
    (hl0 : 0 < l) (hl15 : l ≤ 15) {x : RPoly} (hx : WellFormed l ms x) :
    ∃ s, Rns.serialize ms x = .ok s ∧ Rns.deserialize ms s = .ok x := by
  obtain ⟨ln, cs, b⟩ := x
  obtain ⟨h1, h2⟩ := hx
  simp only at h1 h2
  subst h1
  have hlen := h2.length_eq
  obtain ⟨ss, s1, s2, s3⟩ := serializeVectors_ok hg hw hw8 hl15 h2
  refine ⟨⟨ln, ss, b⟩, ?_, ?_⟩
  · unfold Rns.serialize
    simp only
    rw [if_neg (by simpa using hlen), s1]
    rfl
  · unfold Rns.deserialize
    simp only
    rw [if_neg (by omega), if_neg (by simpa using s2)]
    have : shl1 ((ln : ℤ)).toNat = .ok (2 ^ ln) := by unfold shl1; rw [if_pos (by simp; omega)]; simp
    rw [this, Outcome.bind_ok, s3, Outcome.bind_ok]
    refine create_ok' (fun e => hne ?_) ?_
    · rw [e] at hlen; exact List.length_eq_zero_iff.mp hlen
    · intro v hv
      obtain ⟨i, hi, rfl⟩ := List.mem_iff_getElem.mp hv
      exact ((List.forall₂_iff_get.mp h2).2 i (by omega) hi).1

/-- **C60, polynomials.** Messages that cannot come from a polynomial of these moduli are rejected: a dimension below 2
or above `2^15`, another number of vectors, or a byte string that is too short. -/
theorem c60_polynomial_rejects {m : Modulus} (hg : MParams.create w m.N = .ok m.p) (hw : w ≤ 128) (hw8 : 8 ≤ w)
    (ms : List Modulus) (s : Serialized) :
    (s.logN ≤ 0 ∨ s.vectors.length ≠ ms.length → Rns.deserialize ms s = .err .invalidArgument) ∧
    (0 < s.logN → s.logN < 31 → s.vectors.length = (m :: ms).length →
      (15 < s.logN ∨ ∃ v ∈ s.vectors.head?, v.length * 8 < m.p.logModulus * 2 ^ s.logN.toNat) →
      Rns.deserialize (m :: ms) s = .err .invalidArgument) := by
  constructor
  · intro h
    unfold Rns.deserialize
    by_cases h1 : s.logN ≤ 0
    · rw [if_pos h1]
    · rw [if_neg h1, if_pos (h.resolve_left h1)]
  · intro h0 h31 hlen h
    unfold Rns.deserialize
    rw [if_neg (by omega), if_neg (by simpa using hlen)]
    obtain ⟨k, hk⟩ := Int.eq_ofNat_of_zero_le h0.le
    rw [hk] at h h31 h0 ⊢
    have : shl1 ((k : ℤ)).toNat = .ok (2 ^ k) := by unfold shl1; rw [if_pos (by simp; omega)]; simp
    rw [this, Outcome.bind_ok]
    cases hv : s.vectors with
    | nil => rw [hv] at hlen; simp at hlen
    | cons v vs =>
      rw [hv] at h
      have hd : Mont.deserializeVector m.p ((2 ^ k : ℕ) : ℤ) v = .err .invalidArgument := by
        by_cases hk15 : k ≤ 15
        · refine (c10_rejects hg hw hw8).2.2.1 (2 ^ k) v (Nat.pow_le_pow_right (by norm_num) hk15) ?_
          rcases h with h | ⟨v', hv', h⟩
          · omega
          · simp at hv'
            subst hv'
            simpa using h
        · refine (c10_rejects hg hw hw8).2.1 _ v (Or.inr ?_)
          have : (2 : ℕ) ^ 15 < 2 ^ k := Nat.pow_lt_pow_right (by norm_num) (by omega)
          exact_mod_cast this
      unfold perModulus
      simp only [hd]
      rfl

/-- **C60 fails for hostile messages.** A message with the right number of vectors and a `log_n` of 31 or more is not
rejected: `Deserialize` shifts an `int` by that amount. -/
theorem c60_wide_shift (ms : List Modulus) (s : Serialized) (h : 31 ≤ s.logN) (hlen : s.vectors.length = ms.length) :
    Rns.deserialize ms s = .ub .badShift := by
  unfold Rns.deserialize
  rw [if_neg (by omega), if_neg (by simpa using hlen)]
  unfold shl1
  rw [if_neg (by omega)]
  rfl

/-- **C60 fails for constants.** A polynomial with one coefficient can be created and serialized; the message is
rejected. -/
theorem c60_constant : ∃ (m : Modulus) (x : RPoly) (s : Serialized),
    Rns.create [[5]] false = .ok x ∧ Rns.serialize [m] x = .ok s ∧ Rns.deserialize [m] s = .err .invalidArgument :=
  ⟨exampleModulus 16 2 193, ⟨0, [[5]], false⟩, ⟨0, [[5]], false⟩, by decide +kernel, by decide +kernel,
    by decide +kernel⟩

/-- `operator==` decides equality of dimension, form and stored words. -/
theorem c60_equality (x y : RPoly) : Rns.beq x y = true ↔ x = y := by
  obtain ⟨l, c, b⟩ := x
  obtain ⟨l', c', b'⟩ := y
  unfold Rns.beq
  simp only [Bool.and_eq_true, beq_iff_eq, RPoly.mk.injEq]
  tauto

theorem serializeAll_ok (hg : ∀ m ∈ ms, MParams.create w m.N = .ok m.p) (hne : ms ≠ []) (hw : w ≤ 128) (hw8 : 8 ≤ w)
    (hl0 : 0 < l) (hl15 : l ≤ 15) : ∀ {xs : List RPoly}, (∀ x ∈ xs, WellFormed l ms x) →
    ∃ ss, xs.mapM (Rns.serialize ms) = .ok ss ∧ ss.length = xs.length ∧ ss.mapM (Rns.deserialize ms) = .ok xs := by
  intro xs
  induction xs with
  | nil => intro _; exact ⟨[], rfl, rfl, rfl⟩
  | cons x xs ih =>
    intro h
    obtain ⟨s, s1, s2⟩ := c60_polynomial hg hne hw hw8 hl0 hl15 (h x (by simp))
    obtain ⟨ss, t1, t2, t3⟩ := ih fun y hy => h y (by simp [hy])
    refine ⟨s :: ss, ?_, by simp [t2], ?_⟩
    · rw [List.mapM_cons, s1, Outcome.bind_ok, t1]; rfl
    · rw [List.mapM_cons, s2, Outcome.bind_ok, t3]; rfl

/-- **C60, ciphertexts.** RNS ciphertexts with any number of components (also none) and any power of the secret
survive, if no lazy operation is pending. -/
theorem c60_ciphertext {x : RCt} (hg : ∀ m ∈ x.ms, MParams.create w m.N = .ok m.p) (hne : x.ms ≠ []) (hw : w ≤ 128)
    (hw8 : 8 ≤ w) (hl0 : 0 < l) (hl15 : l ≤ 15) (hx : ∀ c ∈ x.c, WellFormed l x.ms c) :
    ∃ s, x.serialize = .ok s ∧ RCt.deserialize s x.ms = .ok x := by
  obtain ⟨ss, s1, s2, s3⟩ := serializeAll_ok hg hne hw hw8 hl0 hl15 hx
  refine ⟨⟨ss, x.power⟩, ?_, ?_⟩
  · unfold RCt.serialize; rw [s1]; rfl
  · unfold RCt.deserialize; simp only [s3]; rfl

/-- **C60, ciphertexts.** So the deserialized ciphertext decrypts to the same message. -/
theorem c60_encrypts {x : RCt} {S Φ : Fin (2 ^ l) → ℤ} (hg : ∀ m ∈ x.ms, MParams.create w m.N = .ok m.p)
    (hne : x.ms ≠ []) (hw : w ≤ 128) (hw8 : 8 ≤ w) (hl0 : 0 < l) (hl15 : l ≤ 15) (hx : Encrypts l S x Φ) :
    ∃ s y, x.serialize = .ok s ∧ RCt.deserialize s x.ms = .ok y ∧ Encrypts l S y Φ := by
  obtain ⟨_, Cs, hC, _⟩ := id hx
  have hc := components_comp hC
  obtain ⟨s, s1, s2⟩ := c60_ciphertext (l := l) hg hne hw hw8 hl0 hl15 (x := x) (fun c hmem => by
    obtain ⟨i, hi, rfl⟩ := List.mem_iff_getElem.mp hmem
    have := (List.forall₂_iff_get.mp hc).2 i hi (by rw [← hc.length_eq]; exact hi)
    exact wellFormed_of_represents this.2)
  exact ⟨s, x, s1, s2, hx⟩

/-- **C60, Galois keys.** A created Galois key survives: its `a` polynomials are sampled again from the seed. -/
theorem c60_galois (Gp : Gen τ) (start : List ℕ → τ) {fuel : ℕ} {key : RGalois}
    (hg : ∀ m ∈ key.ms, MParams.create w m.N = .ok m.p) (hne : key.ms ≠ []) (hw : w ≤ 128) (hw8 : 8 ≤ w) (hl0 : 0 < l)
    (hl15 : l ≤ 15) (hb : ∀ b ∈ key.bs, WellFormed l key.ms b) (hb0 : key.bs ≠ []) {seed : List ℕ} {prng : PrngType}
    (hp : prng ≠ .invalid) {as : List RPoly} {s' : τ}
    (hpads : samplePads Gp fuel l key.ms key.bs.length (start seed) = .ok (as, s')) :
    ∃ s, key.serialize seed prng = .ok s ∧
      RGalois.deserialize Gp start fuel s key.gadget key.ms = .ok { key with as } ∧
      (key.as = as → RGalois.deserialize Gp start fuel s key.gadget key.ms = .ok key) := by
  obtain ⟨ss, s1, s2, s3⟩ := serializeAll_ok hg hne hw hw8 hl0 hl15 hb
  have hlen : key.bs.length ≠ 0 := fun e => hb0 (List.length_eq_zero_iff.mp e)
  have hd : RGalois.deserialize Gp start fuel ⟨ss, key.power, seed, prng⟩ key.gadget key.ms = .ok { key with as } := by
    unfold RGalois.deserialize
    simp only
    rw [if_neg (by omega), s3, Outcome.bind_ok]
    cases hbs : key.bs with
    | nil => exact absurd hbs hb0
    | cons b bs =>
      have hbl : b.logN = l := (hb b (by simp [hbs])).1
      rw [show rd (b :: bs) 0 = .ok b from rfl, Outcome.bind_ok, if_neg hp, hbl, s2, hpads]
      obtain ⟨a1, a2, a3, a4, a5⟩ := key
      simp only at hbs
      subst hbs
      rfl
  refine ⟨⟨ss, key.power, seed, prng⟩, ?_, hd, ?_⟩
  · unfold RGalois.serialize; rw [s1]; rfl
  · rintro rfl
    rw [hd]

/-- **C60, Galois keys.** In particular for the keys of `Create`, where the pads come from the seed. -/
theorem c60_galois_create (Gp : Gen τ) (G : Gen σ) (hG : Words G) {fuel : ℕ} {k : RKey} {S : Fin (2 ^ l) → ℤ}
    (hk : GoodKey w l k S) (hms : k.ms ≠ []) (hw : w ≤ 128) (hw8 : 8 ≤ w) (hl0 : 0 < l) (hl15 : l ≤ 15) {g : RGadget} {Gs : List ℤ}
    {logs : List ℕ} (hgad : GadgetFor l k.ms g Gs logs) (hdim : g.dimension ≠ 0) {power v : ℤ}
    (hv : ∀ m ∈ k.ms.head?, 2 * v ≤ m.N) {prng : PrngType} {t : ℕ} (ht : t < 2 ^ w) (start : List ℕ → τ)
    (seed : List ℕ) {s : σ} {key : RGalois}
    (h : RGalois.create Gp G fuel k power v g prng t (start seed) s = .ok key) :
    ∃ x, key.serialize seed prng = .ok x ∧ RGalois.deserialize Gp start fuel x g k.ms = .ok key := by
  obtain ⟨e1, e2, -, -, -, hkey⟩ := c52_galois_create Gp G hG hk hgad hv ht h
  unfold RGalois.create at h
  obtain ⟨_, h⟩ | ⟨hp, h⟩ := ite_eq_iff.mp h
  · cases h
  obtain ⟨⟨pads, sp'⟩, h1, h⟩ := Outcome.bind_eq_ok.mp h
  have hlog : k.key.logN = l := hk.key.2.1
  rw [hlog] at h1
  have e3 : key.gadget = g ∧ key.as = pads := by
    dsimp only at h
    unfold RGalois.createWithPad at h
    obtain ⟨n, _, h⟩ := Outcome.bind_eq_ok.mp h
    obtain ⟨_, h⟩ | ⟨_, h⟩ := ite_eq_iff.mp h
    · cases h
    obtain ⟨_, h⟩ | ⟨_, h⟩ := ite_eq_iff.mp h
    · cases h
    obtain ⟨_, h⟩ | ⟨_, h⟩ := ite_eq_iff.mp h
    · cases h
    obtain ⟨_, h⟩ | ⟨_, h⟩ := ite_eq_iff.mp h
    · cases h
    obtain ⟨_, h⟩ | ⟨_, h⟩ := ite_eq_iff.mp h
    · cases h
    obtain ⟨_, _, h⟩ := Outcome.bind_eq_ok.mp h
    obtain ⟨_, _, h⟩ := Outcome.bind_eq_ok.mp h
    obtain ⟨⟨_, _, _⟩, _, h⟩ := Outcome.bind_eq_ok.mp h
    cases h
    exact ⟨rfl, rfl⟩
  obtain ⟨Es, hcol, _⟩ := hkey.columns
  obtain ⟨As, Bs, hA, hBs, la, lb, le, _⟩ := keyColumns_polys hcol
  have hbl : key.bs.length = g.dimension := by
    rw [lb, gadgetMultiples, List.length_map, ← hkey.gadget.comps.length_eq, hkey.gadget.dim, e3.1]
  have hwf : ∀ b ∈ key.bs, WellFormed l key.ms b := fun b hmem => by
    obtain ⟨i, hi, rfl⟩ := List.mem_iff_getElem.mp hmem
    have := (List.forall₂_iff_get.mp hBs).2 i hi (by rw [← hBs.length_eq]; exact hi)
    exact wellFormed_of_represents this.2
  rw [← e2, ← hbl] at h1
  have hgood : ∀ m ∈ key.ms, MParams.create w m.N = .ok m.p := fun m hm => (hk.good m (e2 ▸ hm)).create
  have hne : key.ms ≠ [] := by
    rw [e2]
    exact hms
  obtain ⟨x, x1, x2, x3⟩ := c60_galois Gp start hgood hne hw hw8 hl0 hl15 hwf
    (fun e => hdim (by rw [← hbl, e]; rfl)) (seed := seed) (prng := prng) hp h1
  exact ⟨x, x1, by rw [← e3.1, ← e2]; exact x3 e3.2⟩

/-- **C60, Galois keys.** Messages without polynomials or with an invalid type of generator are rejected. -/
theorem c60_galois_rejects (Gp : Gen τ) (start : List ℕ → τ) (fuel : ℕ) (x : SGalois) (g : RGadget)
    (ms : List Modulus) :
    (x.bs = [] → RGalois.deserialize Gp start fuel x g ms = .err .invalidArgument) ∧
    (∀ bs, x.bs.mapM (Rns.deserialize ms) = .ok bs → bs ≠ [] → x.prng = .invalid →
      RGalois.deserialize Gp start fuel x g ms = .err .invalidArgument) := by
  constructor
  · intro h
    unfold RGalois.deserialize
    rw [if_pos (by simp [h])]
  · intro bs hbs hne hp
    unfold RGalois.deserialize
    by_cases h0 : x.bs.length = 0
    · rw [if_pos h0]
    rw [if_neg h0, hbs, Outcome.bind_ok]
    cases bs with
    | nil => exact absurd rfl hne
    | cons b bs => rw [show rd (b :: bs) 0 = .ok b from rfl, Outcome.bind_ok, if_pos hp]

/-! ### Pending lazy operations -/

/-- `RnsRlweCiphertext::Serialize` on a ciphertext with its lazy components: they are not part of the message
(rns/rns_ciphertext.h:90-98), and `Deserialize` starts without them. -/
def lazyRoundTrip (x : LCt) : Outcome LCt := do
  let s ← x.ct.serialize
  let y ← RCt.deserialize s x.ct.ms
  return ⟨y, []⟩

/-- **C60 fails for pending operations.** Products that have been absorbed lazily and not merged are lost without an
error: what comes back has none, so that merging fails, whatever was pending. -/
theorem c60_pending_lost {x : LCt} (hg : ∀ m ∈ x.ct.ms, MParams.create w m.N = .ok m.p) (hne : x.ct.ms ≠ [])
    (hw : w ≤ 128) (hw8 : 8 ≤ w) (hl0 : 0 < l) (hl15 : l ≤ 15) (hx : ∀ c ∈ x.ct.c, WellFormed l x.ct.ms c) :
    ∃ y, lazyRoundTrip x = .ok y ∧ y.lazy = [] ∧ y.merge = .err .failedPrecondition := by
  obtain ⟨s, s1, s2⟩ := c60_ciphertext hg hne hw hw8 hl0 hl15 hx
  refine ⟨⟨x.ct, []⟩, ?_, rfl, rfl⟩
  unfold lazyRoundTrip
  rw [s1, Outcome.bind_ok, s2]
  rfl

end

/-! ### Concrete cases -/

/-- The hypotheses are met by the example moduli and every polynomial that represents something; a message. -/
example : (∀ m ∈ exMs, MParams.create 16 m.N = .ok m.p) ∧ exMs ≠ [] ∧ ∃ x, WellFormed 2 exMs x :=
  ⟨fun m hm => (exMs_good m hm).create, by simp [exMs], by
    obtain ⟨r, _, _, r3⟩ := repr_createZero exMs_good (by simp [exMs]) true
    exact ⟨r, wellFormed_of_represents r3⟩⟩

example : (do
    let m := exampleModulus 16 2 193
    let s ← Rns.serialize [m] ⟨2, [[1, 192, 7, 0]], true⟩
    let y ← Rns.deserialize [m] s
    return (s.vectors, y)) = .ok ([[1, 192, 7, 0]], ⟨2, [[1, 192, 7, 0]], true⟩) := by
  decide +kernel

end Shell
