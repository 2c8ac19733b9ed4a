import Verif.Model.Context
import Verif.Props.Ntt
import Verif.Props.Bits
import Verif.Props.Word
/-!
# C61: encryption contexts

`RlweContext::Create` accepts exactly the documented parameters, and the context it returns reports them.
-/

namespace Shell
open Context Spec

variable {w N logN logT variance : ℕ}

theorem toInt32_small {x : ℕ} (h : x < 2 ^ 31) : toInt32 x = x := by
  unfold toInt32
  rw [Int.bmod_def]
  have : ((x : ℤ) % (2 ^ 32 : ℕ)) = x := Int.emod_eq_of_lt (by omega) (by push_cast; omega)
  rw [this, if_pos (by push_cast; omega)]

theorem bitLength_gt {N k : ℕ} (hN : N < 2 ^ 128) : (k : ℤ) ≤ (Bits.bitLength N : ℤ) - 1 ↔ 2 ^ k ≤ N := by
  obtain ⟨h1, h2⟩ := c12_bit_length N hN
  constructor
  · intro h
    by_contra hc
    have := h2 k (by omega)
    omega
  · intro h
    by_contra hc
    have : 2 ^ Bits.bitLength N ≤ 2 ^ k := Nat.pow_le_pow_right (by norm_num) (by omega)
    omega

theorem logModulus_of_create {p : MParams} (h : MParams.create w N = .ok p) :
    p.logModulus = Bits.bitLength N := by
  unfold MParams.create at h
  split_ifs at h
  cases h; rfl

theorem errorParams_ok_iff {p : MParams} (h : MParams.create w N = .ok p) (hN : N < 2 ^ 128) (logT variance : ℕ) :
    ((∃ t, errorParams p logT variance = .ok t) ↔ 1 ≤ logT ∧ 2 ^ logT ≤ N ∧ variance ≤ 256) ∧
    ((¬ ∃ t, errorParams p logT variance = .ok t) → errorParams p logT variance = .err .invalidArgument) := by
  have hb := bitLength_gt (k := logT) hN
  unfold errorParams Sampler.kMaxVariance
  rw [logModulus_of_create h]
  by_cases h1 : (logT : ℤ) > (Bits.bitLength N : ℤ) - 1
  · rw [if_pos h1]
    refine ⟨⟨fun ⟨_, h'⟩ => (nomatch h'), fun hc => ?_⟩, fun _ => rfl⟩
    have := hb.mpr hc.2.1
    omega
  rw [if_neg h1]
  have h1' := hb.mp (by omega)
  by_cases h2 : (logT : ℤ) ≤ 0
  · rw [if_pos h2]
    exact ⟨⟨fun ⟨_, h'⟩ => (nomatch h'), fun hc => by omega⟩, fun _ => rfl⟩
  rw [if_neg h2]
  by_cases h3 : variance > 256
  · rw [if_pos h3]
    exact ⟨⟨fun ⟨_, h'⟩ => (nomatch h'), fun hc => by omega⟩, fun _ => rfl⟩
  rw [if_neg h3]
  exact ⟨⟨fun _ => ⟨by omega, h1', by omega⟩, fun _ => ⟨_, rfl⟩⟩, fun h => absurd ⟨_, rfl⟩ h⟩

/-- **C61.** For a prime modulus and parameters that fit an `int`, a context is created exactly when the
modulus is an odd number that leaves two free bits in the word, the ring dimension `2^log_n` is one of
`2, .., 2^15` that fits the word, `q ≡ 1 (mod 2n)`, `log_t` is positive with `2^log_t ≤ q`, and the variance is at
most 256; every other choice is reported as an invalid argument. -/
theorem c61_create_partial (hp : N.Prime) (hN : N < 2 ^ 128) (h1 : logN < 2 ^ 31) (h2 : logT < 2 ^ 31) :
    ((∃ c, create w N logN logT variance = .ok c) ↔
      N % 2 = 1 ∧ N < 2 ^ (w - 2) ∧ 1 ≤ logN ∧ logN ≤ 15 ∧ logN + 1 < w ∧ N % 2 ^ (logN + 1) = 1 ∧
      1 ≤ logT ∧ 2 ^ logT ≤ N ∧ variance ≤ 256) ∧
    ((¬ ∃ c, create w N logN logT variance = .ok c) →
      create w N logN logT variance = .err .invalidArgument) := by
  obtain ⟨a1, a2, -⟩ := c02_create w N
  unfold create
  rw [toInt32_small h1, toInt32_small h2]
  by_cases hc : ∃ p, MParams.create w N = .ok p
  · obtain ⟨p, hc⟩ := hc
    have a1' := a1.mp ⟨p, hc⟩
    obtain ⟨b1, b2⟩ := c13_init_succeeds_iff hc hp (logN : ℤ)
    rw [hc, Outcome.bind_ok]
    by_cases hq : ∃ q, Ntt.initNtt p (logN : ℤ) = .ok q
    · have b1' := b1.mp hq
      obtain ⟨q, hq⟩ := hq
      obtain ⟨c1, c2⟩ := errorParams_ok_iff hc hN logT variance
      rw [hq, Outcome.bind_ok]
      rw [Int.toNat_natCast] at b1'
      by_cases ht : ∃ t, errorParams p (logT : ℤ) variance = .ok t
      · have c1' := c1.mp ht
        obtain ⟨t, ht⟩ := ht
        rw [ht]
        exact ⟨⟨fun _ => ⟨a1'.1, a1'.2, by omega, by omega, by omega, b1'.2.2.2, c1'⟩, fun _ => ⟨_, rfl⟩⟩,
          fun h => absurd ⟨_, rfl⟩ h⟩
      · rw [c2 ht]
        exact ⟨⟨fun ⟨_, h'⟩ => (nomatch h'), fun h => absurd (c1.mpr h.2.2.2.2.2.2) ht⟩, fun _ => rfl⟩
    · rw [b2 hq]
      refine ⟨⟨fun ⟨_, h'⟩ => (nomatch h'), fun h => absurd (b1.mpr ?_) hq⟩, fun _ => rfl⟩
      rw [Int.toNat_natCast]
      exact ⟨by omega, by omega, by omega, h.2.2.2.2.2.1⟩
  · rw [a2 hc]
    exact ⟨⟨fun ⟨_, h'⟩ => (nomatch h'), fun h => absurd (a1.mpr ⟨h.1, h.2.1⟩) hc⟩, fun _ => rfl⟩

/-- **C61.** What the context reports: the parameters it was created with, `GetN() = 2^log_n`,
`GetT() = 2^log_t + 1`, which is also the plaintext modulus of the error estimates; the Montgomery and NTT
parameters are those of the modulus and of dimension `GetN()`; and the plaintext modulus does not exceed the
modulus. -/
theorem c61_accessors_partial {c : RlweContext} (hp : N.Prime) (hN : N < 2 ^ 128) (h1 : logN < 2 ^ 31)
    (h2 : logT < 2 ^ 31) (h : create w N logN logT variance = .ok c) :
    c.modulus = N ∧ c.logN = logN ∧ c.logT = logT ∧ c.variance = variance ∧
    c.getN = .ok (2 ^ logN) ∧ c.getT = .ok (2 ^ logT + 1) ∧ c.errorT = 2 ^ logT + 1 ∧
    MParams.create w N = .ok c.params ∧ Ntt.initNtt c.params logN = .ok c.ntt ∧
    c.ntt.numberCoeffs = 2 ^ logN ∧ 2 ^ logT + 1 ≤ N := by
  obtain ⟨e1, e2, e3, e4, e5, e6, e7, e8, e9⟩ :=
    ((c61_create_partial (w := w) (variance := variance) hp hN h1 h2).1).mp ⟨c, h⟩
  unfold create at h
  rw [toInt32_small h1, toInt32_small h2] at h
  obtain ⟨p, hc, h⟩ := Outcome.bind_eq_ok.mp h
  obtain ⟨q, hq, h⟩ := Outcome.bind_eq_ok.mp h
  obtain ⟨t, ht, h⟩ := Outcome.bind_eq_ok.mp h
  cases h
  have hw : p.w = w := (good_of_create hc).hw
  have hT : 2 ^ logT < 2 ^ (w - 2) := by omega
  have hT' : logT < w - 2 := (Nat.pow_lt_pow_iff_right (by norm_num)).mp hT
  have hlt : 2 ^ logT + 1 < 2 ^ w := by
    have : 2 ^ (w - 2) < 2 ^ w := Nat.pow_lt_pow_right (by norm_num) (by omega)
    omega
  have htr : trunc w ((1 <<< logT + 1 : ℕ) : ℤ) = 2 ^ logT + 1 := by
    unfold trunc
    rw [Nat.shiftLeft_eq, one_mul, Int.emod_eq_of_lt (by positivity) (by exact_mod_cast hlt), Int.toNat_natCast]
  have hne : 2 ^ logT ≠ N := by
    intro h
    rw [← h] at e1
    obtain ⟨k, rfl⟩ : ∃ k, logT = k + 1 := ⟨logT - 1, by omega⟩
    rw [pow_succ] at e1
    omega
  refine ⟨rfl, rfl, rfl, rfl, ?_, ?_, ?_, hc, hq, ?_, by omega⟩
  · unfold RlweContext.getN
    show (if logN < 31 then Outcome.ok (1 <<< logN) else _) = _
    rw [if_pos (by omega), Nat.shiftLeft_eq, one_mul]
  · unfold RlweContext.getT
    show (if logT < max 31 p.w then Outcome.ok (trunc p.w ((1 <<< logT + 1 : ℕ) : ℤ)) else _) = _
    rw [hw, if_pos (by omega), htr]
  · show t = _
    unfold errorParams at ht
    split_ifs at ht
    cases ht
    rw [Int.toNat_natCast, hw, htr]
  · obtain ⟨psi, -, hn, -⟩ := c13_tables hc hp logN hq
    exact hn

/-- **C61.** `CanModulusSwitchTo(p)` succeeds exactly when `p` and the modulus agree modulo `t`. -/
theorem c61_can_switch_partial {c : RlweContext} (hp : N.Prime) (hN : N < 2 ^ 128) (h1 : logN < 2 ^ 31)
    (h2 : logT < 2 ^ 31) (h : create w N logN logT variance = .ok c) (p : ℕ) :
    (N ≡ p [MOD 2 ^ logT + 1] → c.canModulusSwitchTo p = .ok ()) ∧
    (¬ N ≡ p [MOD 2 ^ logT + 1] → c.canModulusSwitchTo p = .err .invalidArgument) := by
  obtain ⟨a, -, -, -, -, b, -⟩ := c61_accessors_partial hp hN h1 h2 h
  unfold RlweContext.canModulusSwitchTo
  rw [b, Outcome.bind_ok, a, if_neg (by positivity)]
  constructor
  · intro h; rw [if_neg]; exact fun hc => hc h
  · intro h; rw [if_pos]; exact h

/-- **C61.** A context is all that is needed: with the parameters of a context whose modulus leaves room for the
noise, every ciphertext produced by `Encrypt` under a sampled key decrypts to the message. -/
theorem c61_encryption_partial {σ τ : Type} (G : Gen σ) (G' : Gen τ) (hG' : Words G') {c : RlweContext}
    (hp : N.Prime) (hN : N < 2 ^ 128) (h1 : logN < 2 ^ 31) (h2 : logT < 2 ^ 31)
    (h : create w N logN logT variance = .ok c)
    {s s' : σ} {k : Word.Key} (hk : Word.Key.sample G c.params c.ntt logN c.variance c.logT s = .ok (k, s'))
    (hb : 2 * (2 ^ logT + 2 * variance * (2 ^ logT + 1)) < N)
    (m : Fin (2 ^ logN) → ℕ) (hm : ∀ i, m i < 2 ^ logT + 1) {pt : List ℕ}
    (hv : ValidPoly N (2 ^ logN) pt)
    (hpt : HasCoeffs c.params c.ntt N (2 ^ logN) pt fun i => (m i : ZMod N))
    {fuel bEnc : ℕ} {t t' : τ} {x : Word.Ct} (hx : Word.encrypt G' fuel k pt bEnc t = .ok (x, t')) :
    Word.decrypt k x = .ok (List.ofFn m) := by
  obtain ⟨-, -, a3, a4, -, -, -, a5, a6, -⟩ := c61_accessors_partial hp hN h1 h2 h
  rw [a3, a4] at hk
  exact c19_words G G' hG' a5 hp a6 hk hb m hm hv hpt hx

/-- The property without the bound on `log_n` and `log_t` fails: the `size_t` is cut to an `int` for the checks,
while the accessors use the full value, so a context is created whose `GetN()` is undefined. -/
theorem c61_wide_parameters :
    (do let c ← create 32 97 (2 ^ 32 + 2) 3 8
        return (c.ntt.numberCoeffs, c.logN, c.getN)) = .ok (4, 2 ^ 32 + 2, .ub .badShift) := by
  decide +kernel

/-- The plaintext modulus may equal the modulus, although the check announces `log_t < log_modulus - 1`: then
every error is a multiple of the modulus and vanishes. -/
theorem c61_no_noise :
    (do let c ← create 32 257 3 8 8
        return (c.modulus, c.getT)) = .ok (257, .ok 257) ∧ ∀ e : ZMod 257, ((257 : ℕ) : ZMod 257) * e = 0 := by
  refine ⟨by decide +kernel, fun e => ?_⟩
  rw [ZMod.natCast_self, zero_mul]

/-- A concrete context: `q = 12289`, `n = 1024`, `t = 9`. -/
example : ∃ c, create 32 12289 10 3 8 = .ok c :=
  ((c61_create_partial (by norm_num) (by norm_num) (by norm_num) (by norm_num)).1).mpr (by decide)

/-- One rejected parameter of every kind. -/
example :
    [(12288, 10, 3, 8), (2 ^ 30 + 1, 3, 3, 8), (12289, 0, 3, 8), (12289, 16, 3, 8), (12289, 12, 3, 8), (97, 2, 0, 8),
      (97, 2, 7, 8), (97, 2, 3, 257)].map (fun u : ℕ × ℕ × ℕ × ℕ =>
        (do let c ← create 32 u.1 u.2.1 u.2.2.1 u.2.2.2
            return c.modulus : Outcome ℕ)) = List.replicate 8 (.err .invalidArgument) := by
  decide +kernel

end Shell
