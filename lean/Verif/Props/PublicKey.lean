import Verif.Model.PublicKey
import Verif.Lemmas.SymSwitch
import Verif.Props.Symmetric
/-!
# Property C34: public-key encryption
-/

namespace Shell
open Spec NttRing Sym Finset
variable {C : Ctx}

/-- C34: `Create` succeeds exactly for variances in `[1, 256]` and a known PRNG type. -/
theorem c34_create_iff (k : Key C) (variance : ℤ) (prng : PrngType) (a e : C.Poly) :
    (∃ pk, Pub.create k variance prng a e = .ok pk) ↔
      0 < variance ∧ variance ≤ 256 ∧ prng ≠ .invalid := by
  unfold Pub.create Pub.kMaxVariance
  by_cases c1 : variance ≤ 0
  · rw [if_pos c1]; simp; intro; omega
  rw [if_neg c1]
  by_cases c2 : prng = .invalid
  · rw [if_pos c2]; simp [c2]
  rw [if_neg c2]
  by_cases c3 : variance > 256
  · rw [if_pos c3]; simp; intros; omega
  rw [if_neg c3]
  exact ⟨fun _ => ⟨by omega, by omega, c2⟩, fun _ => ⟨_, rfl⟩⟩

/-- C34: every rejected `Create` and `Encrypt` reports INVALID_ARGUMENT. -/
theorem c34_rejects (k : Key C) (pk : Pub.PKey C) (variance : ℤ) (prng : PrngType)
    (a e m v e0 e1 : C.Poly) (prngNull : Bool) :
    ((variance ≤ 0 ∨ 256 < variance ∨ prng = .invalid) →
      Pub.create k variance prng a e = .err .invalidArgument) ∧
    ((variance ≤ 0 ∨ 256 < variance ∨ prngNull = true) →
      Pub.encrypt pk m variance prngNull v e0 e1 = .err .invalidArgument) := by
  unfold Pub.create Pub.encrypt Pub.kMaxVariance
  constructor <;> intro h <;> split_ifs <;> first | rfl | (exfalso; rcases h with h | h | h <;> first | omega | simp_all)

/-- C34: the noisy plaintext of a public-key encryption is `m + t*(e*v + e0 + e1*s)`, products taken
modulo `X^n + 1`, for every integer key `s`, message and randomness, and every pad `a`. -/
theorem c34_noisy (h : C.Ok) (k : Key C) (S : Fin C.n → ℤ) (hS : k.key = C.toNtt (modq C.q S)) {t : ℤ}
    (ht : k.tUnderQ = (t : ZMod C.q)) (v1 v2 : ℤ) (prng : PrngType) (a : C.Poly)
    (m e v e0 e1 : Fin C.n → ℤ) {pk : Pub.PKey C}
    (hpk : Pub.create k v1 prng a (modq C.q e) = .ok pk) (hv : 0 < v2 ∧ v2 ≤ 256) :
    ∃ x, Pub.encrypt pk (C.toNtt (modq C.q m)) v2 false (modq C.q v) (modq C.q e0) (modq C.q e1) = .ok x ∧
      x.c.length = 2 ∧ x.power = 1 ∧
      Noisy k.key x (fun i => m i + t * (negMul e v i + e0 i + negMul e1 S i)) := by
  obtain ⟨p1, p2, p3⟩ := (c34_create_iff k v1 prng a _).mp ⟨pk, hpk⟩
  unfold Pub.create Pub.kMaxVariance at hpk
  rw [if_neg (by omega), if_neg p3, if_neg (by omega)] at hpk
  have hpk' := (Outcome.ok.inj hpk).symm
  unfold Pub.encrypt Pub.kMaxVariance
  rw [if_neg (by omega), if_neg (by simp), if_neg (by omega)]
  refine ⟨_, rfl, rfl, rfl, ?_⟩
  have e1' : (fun i => m i + t * (negMul e v i + e0 i + negMul e1 S i)) =
      m + (fun i => t * (negMul e v + e0 + negMul e1 S) i) := rfl
  unfold Noisy
  rw [e1', modq_add, toNtt_add, modq_smul, toNtt_smul, modq_add, modq_add, toNtt_add, toNtt_add,
    modq_negMul, modq_negMul, toNtt_negMul h, toNtt_negMul h, ← hS, phase_cons, phase_cons, phase_nil, hpk',
    ht]
  dsimp only
  funext i
  simp only [Pi.add_apply, Pi.mul_apply, Pi.neg_apply, Pi.zero_apply, scalarMul]
  ring

/-- C34: decryption with the secret key returns the message whenever `m + t*(e*v + e0 + e1*s)` stays
below `q/2`. -/
theorem c34_decrypt (h : C.Ok) (S : Fin C.n → ℤ) (vs logT : ℕ) (hlt : 2 ^ logT + 1 < C.q) (v1 v2 : ℤ)
    (prng : PrngType) (a : C.Poly) (m e v e0 e1 : Fin C.n → ℤ)
    (hv1 : 0 < v1 ∧ v1 ≤ 256) (hv2 : 0 < v2 ∧ v2 ≤ 256) (hp : prng ≠ .invalid)
    (hb : ∀ i, 2 * |m i + (2 ^ logT + 1) * (negMul e v i + e0 i + negMul e1 S i)| < C.q) :
    ∃ k pk x, Key.sample (modq C.q S) vs logT = .ok k ∧
      Pub.create k v1 prng a (modq C.q e) = .ok pk ∧
      Pub.encrypt pk (C.toNtt (modq C.q m)) v2 false (modq C.q v) (modq C.q e0) (modq C.q e1) = .ok x ∧
      decrypt k x = .ok fun i => (m i % (2 ^ logT + 1)).toNat := by
  obtain ⟨k, k1, k2, k3, k4, k5, k6⟩ := sample_ok h (modq C.q S) vs logT hlt
  obtain ⟨pk, hpk⟩ := (c34_create_iff k v1 prng a (modq C.q e)).mpr ⟨hv1.1, hv1.2, hp⟩
  obtain ⟨x, hx, -, -, hn⟩ := c34_noisy h k S k2 (t := 2 ^ logT + 1) (by rw [k5]; push_cast; rfl) v1 v2
    prng a m e v e0 e1 hpk hv2
  refine ⟨k, pk, x, k1, hpk, hx, ?_⟩
  rw [c19_decrypt_small h k _ (by rw [k4]; positivity) (by rw [k4]; exact hlt.le) hn hb, k4]
  congr 1
  funext i
  push_cast
  rw [Int.add_mul_emod_self_left]

/-- The ciphertext error of C34 in terms of the sizes of the sampled values. -/
theorem c34_noise (B S : ℤ) (s e v e0 e1 : Fin C.n → ℤ) (hs : ∀ i, |s i| ≤ S) (he : ∀ i, |e i| ≤ B)
    (hv : ∀ i, |v i| ≤ B) (h0 : ∀ i, |e0 i| ≤ B) (h1 : ∀ i, |e1 i| ≤ B) (i : Fin C.n) :
    |negMul e v i + e0 i + negMul e1 s i| ≤ C.n * B * B + B + C.n * B * S := by
  have hB : 0 ≤ B := (abs_nonneg _).trans (he i)
  have n1 : ∀ f : Fin C.n → ℤ, (∀ i, |f i| ≤ B) → norm1 f ≤ C.n * B := by
    intro f hf
    unfold norm1
    refine (Finset.sum_le_card_nsmul _ _ _ fun i _ => hf i).trans ?_
    simp
  have hS : 0 ≤ S := (abs_nonneg _).trans (hs i)
  have b1 := negMul_bound e v B hB hv i
  have b2 := negMul_bound e1 s S hS hs i
  have b1' := b1.trans (mul_le_mul_of_nonneg_right (n1 e he) hB)
  have b2' := b2.trans (mul_le_mul_of_nonneg_right (n1 e1 h1) hS)
  have t1 := abs_add_le (negMul e v i + e0 i) (negMul e1 s i)
  have t2 := abs_add_le (negMul e v i) (e0 i)
  have := h0 i
  linarith

/-- A round trip on the example context: `q = 97`, `t = 3`. -/
example :
    (do let k ← Key.sample (C := exCtx) ![1, 96] 8 1
        let pk ← Pub.create k 8 .hkdf ![50, 61] ![1, 96]
        let x ← Pub.encrypt pk (exCtx.toNtt ![2, 1]) 8 false ![1, 0] ![96, 2] ![1, 1]
        let r ← decrypt k x
        return List.ofFn r) = .ok [2, 1] := by decide +kernel

example : ∃ k pk x, Key.sample (C := exCtx) (modq 97 ![1, -1]) 8 1 = .ok k ∧
      Pub.create k 8 .chacha ![50, 61] (modq 97 ![1, -1]) = .ok pk ∧
      Pub.encrypt pk (exCtx.toNtt (modq 97 ![2, 1])) 8 false (modq 97 ![1, 0]) (modq 97 ![-1, 2])
        (modq 97 ![1, 1]) = .ok x ∧
      decrypt k x = .ok fun i => ((![2, 1] : Fin 2 → ℤ) i % (2 ^ 1 + 1)).toNat :=
  c34_decrypt exCtx_ok ![1, -1] 8 1 (by decide) 8 8 .chacha ![50, 61] ![2, 1] ![1, -1] ![1, 0] ![-1, 2] ![1, 1]
    (by decide) (by decide) (by decide) (by decide +kernel)

end Shell
