import Verif.Lemmas.SymSwitch
import Verif.Props.Polynomial
import Mathlib.Tactic.NormNum.Prime
/-!
# Properties C19-C22, C24, C25: symmetric encryption

The meaning of a ciphertext under a key `s` is its *noisy plaintext*: an integer polynomial `φ` (message
plus `t` times an error) with `φ = sum_i c_i * s^i` modulo `q` and modulo `X^n + 1`.
-/

namespace Shell
open Spec NttRing Sym Finset
open MParams Ntt

variable {C D : Ctx}

/-- `φ` is a noisy plaintext of the ciphertext `x` under the key polynomial `s` (in NTT form). -/
def Noisy (s : C.Poly) (x : Ct C) (φ : Fin C.n → ℤ) : Prop :=
  C.toNtt (modq C.q φ) = phase s x.c

/-! ## Contexts come from the real parameters -/

/-- Every successful creation of modulus and NTT parameters for a prime modulus yields a context whose
`ConvertToNtt`, `InverseNtt` and `Substitute` on residues are what the word-level functions compute. -/
theorem ctx_of_params {w N : ℕ} {p : MParams} (h : create w N = .ok p) (hp : N.Prime) (l : ℕ)
    {q : NttParams} (hq : initNtt p l = .ok q) :
    ∃ psi : ZMod N, (Ctx.mk w N l psi).Ok ∧
      (∀ v F, Poly.Rep p N (2 ^ l) v F → ∃ r, Poly.convertToNtt p q v = .ok r ∧
        Poly.Rep p N (2 ^ l) r ((Ctx.mk w N l psi).toNtt F)) ∧
      (∀ v F, Poly.Rep p N (2 ^ l) v F → ∃ r, Poly.inverseNtt p q v = .ok r ∧
        Poly.Rep p N (2 ^ l) r ((Ctx.mk w N l psi).fromNtt F)) ∧
      (∀ v F (k : ℕ), k % 2 = 1 → k < 2 * 2 ^ l → Poly.Rep p N (2 ^ l) v F →
        ∃ r G, Poly.substitute q v k = .ok r ∧ (Ctx.mk w N l psi).substitute F k = .ok G ∧
        Poly.Rep p N (2 ^ l) r G) := by
  have g := good_of_create h
  obtain ⟨l', hl', psi, t⟩ := tables_of_init h hp hq
  have : l' = l := by omega
  subst this
  refine ⟨psi, ⟨hp, g.odd, g.lt, t.l1, t.l15, t.root⟩, ?_, ?_, ?_⟩
  · intro v F hr
    obtain ⟨r, r1, r2, _⟩ := hr.forward g t
    exact ⟨r, r1, r2⟩
  · intro v F hr
    obtain ⟨r, r1, r2, _⟩ := hr.inverse g hp t
    exact ⟨r, r1, r2⟩
  · intro v F k hk hk2 hr
    obtain ⟨r, r1, r2⟩ := hr.substitute (by have := t.l15; omega) t.bitrevs hk hk2
    refine ⟨r, subst l' k F, r1, ?_, r2⟩
    unfold Ctx.substitute
    rw [if_neg, if_neg]
    · simp
    · show ¬ ((k : ℤ) ≥ 2 * ((2 ^ l' : ℕ) : ℤ)); omega
    · rw [Int.tmod_eq_emod_of_nonneg (by omega)]; omega

/-- The example context `q = 97`, `n = 2`. -/
def exCtx : Ctx := ⟨16, 97, 1, 22⟩

theorem exCtx_ok : exCtx.Ok :=
  ⟨by show Nat.Prime 97; norm_num, by decide, by decide, by decide, by decide, by
    show (22 : ZMod 97) ^ 2 ^ 1 = -1; decide⟩

/-! ## C19 -/

/-- A key as produced by `Sample`: the plaintext modulus is `t = 2^logT + 1`. -/
theorem sample_ok (h : C.Ok) (s : C.Poly) (v logT : ℕ) (ht : 2 ^ logT + 1 < C.q) :
    ∃ k, Key.sample s v logT = .ok k ∧ k.key = C.toNtt s ∧ k.logT = logT ∧
      k.tMod.val = 2 ^ logT + 1 ∧ k.tUnderQ = ((2 ^ logT + 1 : ℕ) : ZMod C.q) ∧ k.ptq = C.q := by
  haveI := h.neZero
  haveI : Fact C.q.Prime := ⟨h.prime⟩
  have hf := h.fits
  have hlt : logT < C.w := by
    by_contra hc
    have : 2 ^ C.w ≤ 2 ^ logT := Nat.pow_le_pow_right (by norm_num) (by omega)
    omega
  have e : plaintextModulus C.w logT = .ok (2 ^ logT + 1) := by
    unfold plaintextModulus Transcription.shl
    rw [if_pos (by omega), Outcome.bind_ok, Nat.one_shiftLeft,
      Nat.mod_eq_of_lt (by omega : 2 ^ logT < 2 ^ C.w), Nat.mod_eq_of_lt (by omega)]
    rfl
  refine ⟨_, by unfold Key.sample; rw [e]; rfl, rfl, rfl, ?_, ?_, rfl⟩
  · show ((2 ^ logT + 1 : ℕ) : ZMod C.q).val = _
    rw [ZMod.val_natCast, Nat.mod_eq_of_lt ht]
  · show ((((2 ^ logT + 1 : ℕ) : ZMod C.q) * 2 ^ C.w).val : ZMod C.q) * (2 ^ C.w : ZMod C.q)⁻¹ = _
    rw [ZMod.natCast_val, ZMod.cast_id', id, mul_assoc, mul_inv_cancel₀, mul_one]
    have h2 : (2 : ZMod C.q) ≠ 0 := by
      intro hc
      have : ((2 : ℕ) : ZMod C.q) = 0 := by exact_mod_cast hc
      rw [ZMod.natCast_eq_zero_iff] at this
      have := (Nat.dvd_prime Nat.prime_two).mp this
      have := h.odd
      have := h.prime.one_lt
      omega
    exact pow_ne_zero _ h2

/-- C19: `Decrypt` never fails for a key with plaintext modulus `0 < t ≤ q`; for any ciphertext it
returns the centred noisy plaintext modulo `t`. -/
theorem c19_decrypt (h : C.Ok) (k : Key C) (x : Ct C) (ht : 0 < k.tMod.val)
    (htq : k.tMod.val ≤ C.q) {φ : Fin C.n → ℤ} (hφ : Noisy k.key x φ) :
    decrypt k x = .ok fun i => (centered C.q (φ i : ZMod C.q) % (k.tMod.val : ℤ)).toNat := by
  rw [decrypt_eq h k x ht htq, ← hφ, fromNtt_toNtt h]
  rfl

/-- C19: if the noisy plaintext does not wrap, `Decrypt` returns it modulo `t`. -/
theorem c19_decrypt_small (h : C.Ok) (k : Key C) (x : Ct C) (ht : 0 < k.tMod.val)
    (htq : k.tMod.val ≤ C.q) {φ : Fin C.n → ℤ} (hφ : Noisy k.key x φ)
    (hb : ∀ i, 2 * |φ i| < C.q) :
    decrypt k x = .ok fun i => (φ i % (k.tMod.val : ℤ)).toNat := by
  haveI := h.neZero
  rw [c19_decrypt h k x ht htq hφ]
  congr 1
  funext i
  have := hb i
  rw [centered_eq C.q (φ i) (by have := neg_abs_le (φ i); omega) (by have := le_abs_self (φ i); omega)]

/-- C19: the noisy plaintext of a fresh encryption is `m + t*e`, for every pad. -/
theorem c19_encrypt_noisy (k : Key C) (m e : Fin C.n → ℤ) (a : C.Poly) {t : ℤ}
    (ht : k.tUnderQ = (t : ZMod C.q)) :
    Noisy k.key (encrypt k (C.toNtt (modq C.q m)) a (modq C.q e)) (fun i => m i + t * e i) := by
  have e1 : (fun i => m i + t * e i) = m + (fun i => t * e i) := rfl
  unfold Noisy encrypt encryptWithPad
  rw [e1, modq_add, toNtt_add, modq_smul, toNtt_smul, phase_cons, phase_cons, phase_nil, ht]
  ring

/-- C19: for a sampled key, `Decrypt` of `Encrypt` returns the message reduced modulo `t`, for every
key polynomial, message, pad and error for which `m + t*e` stays below `q/2`. -/
theorem c19_roundtrip (h : C.Ok) (s : C.Poly) (v logT : ℕ) (ht : 2 ^ logT + 1 < C.q)
    (m e : Fin C.n → ℤ) (a : C.Poly) (hb : ∀ i, 2 * |m i + (2 ^ logT + 1) * e i| < C.q) :
    ∃ k, Key.sample s v logT = .ok k ∧
      decrypt k (encrypt k (C.toNtt (modq C.q m)) a (modq C.q e)) =
        .ok fun i => (m i % (2 ^ logT + 1)).toNat := by
  obtain ⟨k, k1, k2, k3, k4, k5, k6⟩ := sample_ok h s v logT ht
  refine ⟨k, k1, ?_⟩
  have hn := c19_encrypt_noisy k m e a (t := 2 ^ logT + 1) (by rw [k5]; push_cast; rfl)
  rw [c19_decrypt_small h k _ (by rw [k4]; positivity) (by rw [k4]; exact ht.le) hn (by simpa using hb), k4]
  congr 1
  funext i
  push_cast
  rw [Int.add_mul_emod_self_left]

/-- C19: `MeasureError` of the extracted polynomial is the largest absolute value of a noisy plaintext that
does not wrap: it bounds every coefficient and is attained. -/
theorem c19_measureError (h : C.Ok) (k : Key C) (x : Ct C) {φ : Fin C.n → ℤ} (hφ : Noisy k.key x φ)
    (hb : ∀ i, 2 * |φ i| < C.q) :
    ∃ em, extract k x = .ok em ∧ (∀ i, |φ i| ≤ measureError C.q (List.ofFn fun i => (em i).val)) ∧
      ∃ i, |φ i| = measureError C.q (List.ofFn fun i => (em i).val) := by
  haveI := h.neZero
  have hem : extract k x = .ok (modq C.q φ) := by
    rw [extract_eq, ← hφ, fromNtt_toNtt h]
  refine ⟨_, hem, ?_⟩
  have hval : ∀ i, ((if (modq C.q φ i).val > C.q >>> 1 then C.q - (modq C.q φ i).val
      else (modq C.q φ i).val : ℕ) : ℤ) = |φ i| := fun i => by
    have hb' := hb i
    have hq : (0 : ℤ) < C.q := by exact_mod_cast Nat.pos_of_ne_zero (NeZero.ne _)
    have hv : (((modq C.q φ i).val : ℕ) : ℤ) = φ i % C.q := ZMod.val_intCast _
    have hsh : C.q >>> 1 = C.q / 2 := Nat.shiftRight_one _
    rw [hsh]
    rcases le_or_gt 0 (φ i) with h0 | h0
    · rw [abs_of_nonneg h0] at hb' ⊢
      rw [Int.emod_eq_of_lt h0 (by omega)] at hv
      rw [if_neg (by omega), hv]
    · rw [abs_of_neg h0] at hb' ⊢
      rw [← Int.add_emod_right, Int.emod_eq_of_lt (by omega) (by omega)] at hv
      rw [if_pos (by omega)]
      omega
  have key : ∀ (L : List ℕ) (a : ℕ), (∀ c ∈ L, (if c > C.q >>> 1 then C.q - c else c) ≤
      L.foldl (fun mx c => let c := if c > C.q >>> 1 then C.q - c else c; if c > mx then c else mx) a) ∧
      a ≤ L.foldl (fun mx c => let c := if c > C.q >>> 1 then C.q - c else c; if c > mx then c else mx) a ∧
      (L.foldl (fun mx c => let c := if c > C.q >>> 1 then C.q - c else c; if c > mx then c else mx) a = a ∨
      ∃ c ∈ L, (if c > C.q >>> 1 then C.q - c else c) =
        L.foldl (fun mx c => let c := if c > C.q >>> 1 then C.q - c else c; if c > mx then c else mx) a) := by
    intro L
    induction L with
    | nil => intro a; simp
    | cons c L ih =>
      intro a
      rw [List.foldl_cons]
      dsimp only at ih ⊢
      generalize hd : (if c > C.q >>> 1 then C.q - c else c) = d
      obtain ⟨h1, h2, h3⟩ := ih (if d > a then d else a)
      have hle : d ≤ (if d > a then d else a) ∧ a ≤ (if d > a then d else a) := by split <;> omega
      refine ⟨fun c' hc' => ?_, hle.2.trans h2, ?_⟩
      · rcases List.mem_cons.mp hc' with rfl | hc'
        · rw [hd]; exact hle.1.trans h2
        · exact h1 c' hc'
      · rcases h3 with h3 | ⟨c', c1, c2⟩
        · by_cases hda : d > a
          · right
            exact ⟨c, List.mem_cons_self, by rw [h3, hd, if_pos hda]⟩
          · left; rw [h3, if_neg hda]
        · exact Or.inr ⟨c', List.mem_cons_of_mem _ c1, c2⟩
  obtain ⟨h1, _, h3⟩ := key (List.ofFn fun i => (modq C.q φ i).val) 0
  refine ⟨fun i => ?_, ?_⟩
  · rw [← hval i]
    exact_mod_cast h1 _ (List.mem_ofFn.mpr ⟨i, rfl⟩)
  · rcases h3 with h3 | ⟨c, c1, c2⟩
    · have h0 : (0 : ℕ) < C.n := Nat.two_pow_pos _
      refine ⟨⟨0, h0⟩, ?_⟩
      have := h1 _ (List.mem_ofFn.mpr ⟨⟨0, h0⟩, rfl⟩)
      have h4 : measureError C.q (List.ofFn fun i => (modq C.q φ i).val) = 0 := h3
      rw [h3] at this
      rw [← hval, h4]
      exact_mod_cast Nat.le_zero.mp this
    · obtain ⟨i, rfl⟩ := List.mem_ofFn.mp c1
      refine ⟨i, ?_⟩
      rw [← hval i, c2]
      rfl

/-- With `q = 97` and the noisy plaintext `7 + 9*2, 2 - 9*2`, the measured error is `25`. -/
example : (do let k ← Key.sample (C := exCtx) ![1, 96] 8 3
              let r ← extract k (encrypt k (exCtx.toNtt ![7, 2]) ![50, 61] ![2, 95])
              return measureError 97 (List.ofFn fun i => (r i).val)) = .ok 25 := by decide +kernel

/-- The bound cannot be dropped: with `q = 97`, `t = 3`, `m = 1`, `e = 20` the noisy plaintext 61
wraps and a wrong message is returned. -/
theorem c19_wrap_witness :
    (do let k ← Key.sample (C := exCtx) ![1, 2] 8 1
        let r ← decrypt k (encrypt k (exCtx.toNtt ![1, 0]) ![5, 6] ![20, 0])
        return List.ofFn r) = .ok [0, 0] := by decide +kernel

/-- A round trip on the example context. -/
example :
    (do let k ← Key.sample (C := exCtx) ![1, 96] 8 3
        let r ← decrypt k (encrypt k (exCtx.toNtt ![7, 2]) ![50, 61] ![2, 95])
        return List.ofFn r) = .ok [7, 2] := by decide +kernel

/-- A key whose plaintext modulus is zero modulo `q` is rejected. -/
theorem c19_zero_plaintext_modulus (k : Key C) (x : Ct C) (ht : k.tMod.val = 0) :
    decrypt k x = .err .invalidArgument := by
  unfold decrypt
  rw [extract_eq, Outcome.bind_ok, if_pos ht]

example : (do let k ← Key.sample (C := exCtx) ![1, 96] 8 5
              return k.tMod.val) = .ok 33 ∧
    (do let k ← Key.sample (C := ⟨16, 17, 1, 4⟩) ![1, 16] 8 4
        let r ← decrypt k ⟨[], 1, []⟩
        return List.ofFn r) = .err .invalidArgument := by decide +kernel

/-! ## C20 -/

/-- C20: addition of ciphertexts with any numbers of components; different key powers are rejected. -/
theorem c20_add (s : C.Poly) (x y : Ct C) {φ χ : Fin C.n → ℤ} (hx : Noisy s x φ)
    (hy : Noisy s y χ) :
    (x.power ≠ y.power → addInPlace x y = .err .invalidArgument) ∧
    (x.power = y.power → ∃ r, addInPlace x y = .ok r ∧ Noisy s r (φ + χ) ∧ r.power = x.power ∧
      r.c.length = max x.c.length y.c.length) := by
  constructor
  · intro h; unfold addInPlace; rw [if_pos h]
  · intro h
    obtain ⟨r, e1, e2, e3⟩ := add_ok x y h
    refine ⟨_, e1, ?_, rfl, e2⟩
    unfold Noisy at *
    rw [modq_add, toNtt_add, hx, hy, phase_add s e3]

/-- C20: subtraction. -/
theorem c20_sub (s : C.Poly) (x y : Ct C) {φ χ : Fin C.n → ℤ} (hx : Noisy s x φ)
    (hy : Noisy s y χ) :
    (x.power ≠ y.power → subInPlace x y = .err .invalidArgument) ∧
    (x.power = y.power → ∃ r, subInPlace x y = .ok r ∧ Noisy s r (φ - χ) ∧ r.power = x.power ∧
      r.c.length = max x.c.length y.c.length) := by
  constructor
  · intro h; unfold subInPlace; rw [if_pos h]
  · intro h
    obtain ⟨r, e1, e2, e3⟩ := sub_ok x y h
    refine ⟨_, e1, ?_, rfl, e2⟩
    unfold Noisy at *
    rw [modq_sub, toNtt_sub, hx, hy, phase_sub s e3]

/-- The components of the sum and difference themselves. -/
theorem c20_components (x y : Ct C) (h : x.power = y.power) :
    (∃ r, addInPlace x y = .ok r ∧ ∀ i, r.c.getD i 0 = x.c.getD i 0 + y.c.getD i 0) ∧
    (∃ r, subInPlace x y = .ok r ∧ ∀ i, r.c.getD i 0 = x.c.getD i 0 - y.c.getD i 0) := by
  obtain ⟨r, e1, _, e3⟩ := add_ok x y h
  obtain ⟨r', e1', _, e3'⟩ := sub_ok x y h
  exact ⟨⟨_, e1, e3⟩, ⟨_, e1', e3'⟩⟩

/-- Every ciphertext has a noisy plaintext, so the hypotheses are always met. -/
theorem noisy_exists (h : C.Ok) (s : C.Poly) (x : Ct C) : ∃ φ, Noisy s x φ := by
  obtain ⟨φ, hφ⟩ := exists_modq (q := C.q) (C.fromNtt (phase s x.c))
  exact ⟨φ, by unfold Noisy; rw [hφ, toNtt_fromNtt h]⟩

example : ∃ φ, Noisy (C := exCtx) ![3, 4] ⟨[![1, 2], ![3, 4], ![5, 6]], 1, []⟩ φ :=
  noisy_exists exCtx_ok _ _

/-- One operand with three components, one with two. -/
example :
    (do let r ← addInPlace (C := exCtx) ⟨[![1, 2], ![3, 4]], 1, []⟩ ⟨[![10, 20], ![3, 4], ![5, 96]], 1, []⟩
        return r.c.map fun f => (List.ofFn f).map ZMod.val) = .ok [[11, 22], [6, 8], [5, 96]] ∧
    (do let r ← subInPlace (C := exCtx) ⟨[![1, 2], ![3, 4]], 1, []⟩ ⟨[![10, 20], ![3, 4], ![5, 96]], 1, []⟩
        return r.c.map fun f => (List.ofFn f).map ZMod.val) = .ok [[88, 79], [0, 0], [92, 1]] := by
  decide +kernel

/-! ## C21 -/

/-- C21: absorbing a plaintext polynomial `g` multiplies the noisy plaintext by `g` modulo `X^n+1`; a
scalar multiplies it by the scalar. -/
theorem c21_absorb (h : C.Ok) (s : C.Poly) (x : Ct C) {φ : Fin C.n → ℤ} (hx : Noisy s x φ) :
    (∀ g : Fin C.n → ℤ, Noisy s (absorb x (C.toNtt (modq C.q g))) (negMul φ g) ∧
      (absorb x (C.toNtt (modq C.q g))).power = x.power) ∧
    (∀ a : ℤ, Noisy s (absorbScalar x (a : ZMod C.q)) (fun i => a * φ i) ∧
      (absorbScalar x (a : ZMod C.q)).power = x.power) := by
  constructor
  · intro g
    refine ⟨?_, rfl⟩
    unfold Noisy absorb at *
    rw [modq_negMul, toNtt_negMul h, hx, phase_map_mul]
  · intro a
    refine ⟨?_, rfl⟩
    unfold Noisy absorbScalar at *
    rw [modq_smul, toNtt_smul, hx]
    have e : scalarMul (a : ZMod C.q) = (· * (fun _ => (a : ZMod C.q) : C.Poly)) := by
      funext f i; simp [scalarMul, mul_comm]
    rw [e, phase_map_mul]

/-- C21: fused absorb-and-add. -/
theorem c21_fused (h : C.Ok) (s : C.Poly) (x a : Ct C) {φ χ : Fin C.n → ℤ} (hx : Noisy s x φ)
    (ha : Noisy s a χ) (g : Fin C.n → ℤ) :
    (x.power ≠ a.power → fusedAbsorbAdd x a (C.toNtt (modq C.q g)) = .err .invalidArgument) ∧
    (x.power = a.power → ∃ r, fusedAbsorbAdd x a (C.toNtt (modq C.q g)) = .ok r ∧
      Noisy s r (φ + negMul χ g) ∧ r.power = x.power ∧
      r.c.length = max x.c.length a.c.length) := by
  constructor
  · intro hp; unfold fusedAbsorbAdd; rw [if_pos hp]
  · intro hp
    obtain ⟨e1, e2⟩ := fusedComponents_spec (C.toNtt (modq C.q g)) x.c a.c
    refine ⟨{ x with c := fusedComponents (C.toNtt (modq C.q g)) x.c a.c },
      by unfold fusedAbsorbAdd; rw [if_neg (by simpa using hp)], ?_, rfl, e1⟩
    unfold Noisy at *
    rw [modq_add, modq_negMul, toNtt_add, toNtt_negMul h, hx, ha, ← phase_map_mul]
    apply (phase_add s ?_).symm
    intro i
    rw [e2 i]
    congr 1
    simp only [List.getD_eq_getElem?_getD, List.getElem?_map]
    cases a.c[i]? <;> simp

/-- C21: the product of ciphertexts with `m` and `n` components has `m + n - 1` components and its noisy
plaintext is the product modulo `X^n + 1`; empty ciphertexts and different key powers are rejected. -/
theorem c21_mul (h : C.Ok) (s : C.Poly) (x y : Ct C) {φ χ : Fin C.n → ℤ} (hx : Noisy s x φ)
    (hy : Noisy s y χ) :
    (x.power ≠ y.power ∨ x.c = [] ∨ y.c = [] → mul x y = .err .invalidArgument) ∧
    (x.power = y.power → x.c ≠ [] → y.c ≠ [] → ∃ r, mul x y = .ok r ∧ Noisy s r (negMul φ χ) ∧
      r.power = x.power ∧ r.c.length = x.c.length + y.c.length - 1) := by
  constructor
  · intro hc
    unfold mul
    by_cases hp : x.power ≠ y.power
    · rw [if_pos hp]
    · rw [if_neg hp, if_pos]
      rcases hc with h1 | h1 | h1
      · exact absurd h1 hp
      · simp [h1]
      · simp [h1]
  · intro hp h1 h2
    obtain ⟨r, e1, e2, e3⟩ := mul_ok x y hp h1 h2
    refine ⟨_, e1, ?_, rfl, e2⟩
    unfold Noisy at *
    rw [modq_negMul, toNtt_negMul h, hx, hy, e3 s]

/-- A computation on ciphertexts and plaintexts. -/
inductive Circuit (C : Ctx) where
  | input (x : Ct C)
  | add (u v : Circuit C)
  | sub (u v : Circuit C)
  | mul (u v : Circuit C)
  | absorb (u : Circuit C) (g : Fin C.n → ℤ)

/-- Run the computation homomorphically. -/
def Circuit.run : Circuit C → Outcome (Ct C)
  | .input x => .ok x
  | .add u v => do addInPlace (← u.run) (← v.run)
  | .sub u v => do subInPlace (← u.run) (← v.run)
  | .mul u v => do Sym.mul (← u.run) (← v.run)
  | .absorb u g => do return Sym.absorb (← u.run) (C.toNtt (modq C.q g))

/-- The same computation on noisy plaintexts in `Z[X]/(X^n+1)`; `f` gives those of the inputs. -/
def Circuit.eval (f : Ct C → Fin C.n → ℤ) : Circuit C → Fin C.n → ℤ
  | .input x => f x
  | .add u v => u.eval f + v.eval f
  | .sub u v => u.eval f - v.eval f
  | .mul u v => negMul (u.eval f) (v.eval f)
  | .absorb u g => negMul (u.eval f) g

/-- The inputs of a computation. -/
def Circuit.inputs : Circuit C → List (Ct C)
  | .input x => [x]
  | .add u v | .sub u v | .mul u v => u.inputs ++ v.inputs
  | .absorb u _ => u.inputs

/-- C21: any computation built from these operations on non-empty inputs under one key power succeeds,
and `Decrypt` of the result is the same computation on the noisy plaintexts. -/
theorem c21_circuit (h : C.Ok) (s : C.Poly) (f : Ct C → Fin C.n → ℤ) (pw : ℤ) (u : Circuit C)
    (hin : ∀ x ∈ u.inputs, Noisy s x (f x) ∧ x.power = pw ∧ x.c ≠ []) :
    ∃ r, u.run = .ok r ∧ Noisy s r (u.eval f) ∧ r.power = pw ∧ r.c ≠ [] := by
  induction u with
  | input x =>
    obtain ⟨h1, h2, h3⟩ := hin x (by simp [Circuit.inputs])
    exact ⟨x, rfl, h1, h2, h3⟩
  | add u v ihu ihv =>
    obtain ⟨a, a1, a2, a3, a4⟩ := ihu fun x hx => hin x (by simp [Circuit.inputs, hx])
    obtain ⟨b, b1, b2, b3, b4⟩ := ihv fun x hx => hin x (by simp [Circuit.inputs, hx])
    obtain ⟨r, r1, r2, r3, r4⟩ := (c20_add s a b a2 b2).2 (by rw [a3, b3])
    refine ⟨r, by simp only [Circuit.run, a1, b1, Outcome.bind_ok, r1], r2, by rw [r3, a3], ?_⟩
    have := List.length_pos_iff.mpr a4
    exact List.length_pos_iff.mp (by omega)
  | sub u v ihu ihv =>
    obtain ⟨a, a1, a2, a3, a4⟩ := ihu fun x hx => hin x (by simp [Circuit.inputs, hx])
    obtain ⟨b, b1, b2, b3, b4⟩ := ihv fun x hx => hin x (by simp [Circuit.inputs, hx])
    obtain ⟨r, r1, r2, r3, r4⟩ := (c20_sub s a b a2 b2).2 (by rw [a3, b3])
    refine ⟨r, by simp only [Circuit.run, a1, b1, Outcome.bind_ok, r1], r2, by rw [r3, a3], ?_⟩
    have := List.length_pos_iff.mpr a4
    exact List.length_pos_iff.mp (by omega)
  | mul u v ihu ihv =>
    obtain ⟨a, a1, a2, a3, a4⟩ := ihu fun x hx => hin x (by simp [Circuit.inputs, hx])
    obtain ⟨b, b1, b2, b3, b4⟩ := ihv fun x hx => hin x (by simp [Circuit.inputs, hx])
    obtain ⟨r, r1, r2, r3, r4⟩ := (c21_mul h s a b a2 b2).2 (by rw [a3, b3]) a4 b4
    refine ⟨r, by simp only [Circuit.run, a1, b1, Outcome.bind_ok, r1], r2, by rw [r3, a3], ?_⟩
    have := List.length_pos_iff.mpr a4
    have := List.length_pos_iff.mpr b4
    exact List.length_pos_iff.mp (by omega)
  | absorb u g ih =>
    obtain ⟨a, a1, a2, a3, a4⟩ := ih fun x hx => hin x (by simpa [Circuit.inputs] using hx)
    refine ⟨_, by simp only [Circuit.run, a1, Outcome.bind_ok]; rfl,
      ((c21_absorb h s a a2).1 g).1, a3, ?_⟩
    simpa [absorb] using a4

/-- Encrypt `2 + X` and `1 + X`, multiply, decrypt `(2+X)(1+X) = 1 + 3X`. -/
example :
    (do let k ← Key.sample (C := exCtx) ![1, 96] 8 2
        let x := encrypt k (exCtx.toNtt ![2, 1]) ![50, 61] ![0, 0]
        let y := encrypt k (exCtx.toNtt ![1, 1]) ![10, 11] ![1, 0]
        let z ← Sym.mul x y
        let r ← decrypt k z
        return (z.c.length, List.ofFn r)) = .ok (3, [1, 3]) := by decide +kernel

/-! ## C22 -/

/-- A sequence of lazy accumulations. -/
def lazyRun (x : Ct C) (hist : List (Ct C × C.Poly)) : Outcome (Ct C) :=
  hist.foldlM (fun x ab => fusedAbsorbAddLazily x ab.1 ab.2) x

/-- The same sequence eagerly. -/
def eagerRun (x : Ct C) (hist : List (Ct C × C.Poly)) : Outcome (Ct C) :=
  hist.foldlM (fun x ab => fusedAbsorbAdd x ab.1 ab.2) x

/-- One lazy step when `a` has at least as many components as the accumulator. -/
theorem lazy_step (x a : Ct C) (b : C.Poly) (hp : x.power = a.power)
    (hl : x.lazy.length ≤ a.c.length) :
    ∃ lz, fusedAbsorbAddLazily x a b = .ok { x with lazy := lz } ∧ lz.length = a.c.length ∧
      ∀ i, lz.getD i 0 = x.lazy.getD i 0 + a.c.getD i 0 * b := by
  have hmap : ∀ i, (a.c.map (· * b)).getD i 0 = a.c.getD i 0 * b := by
    intro i
    simp only [List.getD_eq_getElem?_getD, List.getElem?_map]
    cases a.c[i]? <;> simp
  unfold fusedAbsorbAddLazily
  rw [if_neg (by simpa using hp)]
  by_cases h0 : a.c.length = 0
  · rw [if_pos h0]
    have hlz : x.lazy = [] := List.length_eq_zero_iff.mp (by omega)
    have hac : a.c = [] := List.length_eq_zero_iff.mp h0
    exact ⟨x.lazy, rfl, by omega, fun i => by rw [hlz, hac]; simp⟩
  · rw [if_neg h0]
    by_cases hz : x.lazy.length = 0
    · rw [if_pos hz]
      have hlz : x.lazy = [] := List.length_eq_zero_iff.mp hz
      exact ⟨_, rfl, by simp, fun i => by rw [hmap i, hlz]; simp⟩
    · rw [if_neg hz]
      have hlen : (padTo x.lazy a.c).length = a.c.length := by rw [padTo_length]; omega
      obtain ⟨r, e1, e2, e3⟩ := update_loop (fun u v => u + v * b) a.c (padTo x.lazy a.c)
        (padTo x.lazy a.c).length le_rfl (by omega)
      refine ⟨r, ?_, by omega, fun i => ?_⟩
      · dsimp only; rw [e1]; rfl
      · rw [e3 i, padTo_getD]
        split_ifs with hi
        · rfl
        · rw [getD_eq_zero (c := a.c) (by omega), zero_mul, add_zero]

/-- C22 (partial: the component counts of the absorbed ciphertexts must not decrease): the lazy
sequence succeeds, never reads out of range, leaves the components untouched, and merging gives exactly
the ciphertext of the eager sequence. -/
theorem c22_lazy_eq_eager_partial (x : Ct C) (hx : x.lazy = []) (hist : List (Ct C × C.Poly))
    (hne : ∃ ab ∈ hist, ab.1.c ≠ []) (hp : ∀ ab ∈ hist, ab.1.power = x.power)
    (hmono : hist.Pairwise fun u v => u.1.c.length ≤ v.1.c.length) :
    ∃ y z, lazyRun x hist = .ok y ∧ y.c = x.c ∧ mergeLazy y = .ok z ∧ eagerRun x hist = .ok z := by
  -- generalise over the accumulator
  have key : ∀ (hist : List (Ct C × C.Poly)) (y z : Ct C), y.power = z.power →
      (∀ ab ∈ hist, ab.1.power = y.power) →
      (hist.Pairwise fun u v => u.1.c.length ≤ v.1.c.length) →
      (∀ ab ∈ hist, y.lazy.length ≤ ab.1.c.length) →
      z.c = mergeComponents y.c y.lazy → z.lazy = [] →
      ∃ y' z', lazyRun y hist = .ok y' ∧ y'.c = y.c ∧ y'.power = y.power ∧
        eagerRun z hist = .ok z' ∧ z'.power = z.power ∧
        z'.c = mergeComponents y'.c y'.lazy ∧ z'.lazy = [] ∧ y.lazy.length ≤ y'.lazy.length ∧
        ∀ ab ∈ hist, ab.1.c.length ≤ y'.lazy.length := by
    intro hist
    induction hist with
    | nil => intro y z h1 _ _ _ h3 h4; exact ⟨y, z, rfl, rfl, rfl, rfl, rfl, h3, h4, le_rfl, by simp⟩
    | cons ab hist ih =>
      intro y z h1 h2 h3 h4 h5 h6
      obtain ⟨lz, e1, e2, e3⟩ := lazy_step y ab.1 ab.2 (h2 ab (by simp)).symm (h4 ab (by simp))
      have hpz : z.power = ab.1.power := by rw [← h1]; exact (h2 ab (by simp)).symm
      have eE : fusedAbsorbAdd z ab.1 ab.2 =
          .ok { z with c := fusedComponents ab.2 z.c ab.1.c } := by
        unfold fusedAbsorbAdd; rw [if_neg (by simpa using hpz)]
      rw [List.pairwise_cons] at h3
      have hcomp : fusedComponents ab.2 z.c ab.1.c = mergeComponents y.c lz := by
        obtain ⟨f1, f2⟩ := fusedComponents_spec ab.2 z.c ab.1.c
        obtain ⟨m1, m2⟩ := mergeComponents_spec y.c lz
        obtain ⟨k1, k2⟩ := mergeComponents_spec y.c y.lazy
        have hle := h4 ab (by simp)
        apply ext_getD 0
        · rw [f1, m1, h5, k1, e2]; omega
        · intro i _
          rw [f2, m2, h5, k2, e3]; ring
      obtain ⟨y', z', g1, g2, g3, g4, g5, g6, g7, g8, g9⟩ := ih { y with lazy := lz }
        { z with c := fusedComponents ab.2 z.c ab.1.c } h1
        (fun x hx => h2 x (by simp [hx])) h3.2
        (fun x hx => by have := h3.1 x hx; simp only; omega) hcomp h6
      refine ⟨y', z', ?_, g2, g3, ?_, g5, g6, g7, ?_, ?_⟩
      · unfold lazyRun at *; rw [List.foldlM_cons, e1, Outcome.bind_ok]; exact g1
      · unfold eagerRun at *; rw [List.foldlM_cons, eE, Outcome.bind_ok]; exact g4
      · have := h4 ab (by simp); simp only at g8; omega
      · intro x hx
        rcases List.mem_cons.mp hx with rfl | hx
        · simp only at g8; omega
        · exact g9 x hx
  obtain ⟨y, z, e1, e2, e3, e4, e5, e6, e7, e8, e9⟩ := key hist x x rfl hp hmono
    (fun ab _ => by simp [hx]) (by rw [hx]; cases x.c <;> rfl) hx
  obtain ⟨ab, hab, habne⟩ := hne
  have hlne : y.lazy ≠ [] := by
    have h1 := e9 ab hab
    have h2 := List.length_pos_iff.mpr habne
    exact List.length_pos_iff.mp (by omega)
  refine ⟨y, z, e1, e2, ?_, e4⟩
  unfold mergeLazy
  rw [if_neg hlne]
  congr 1
  cases z
  simp only at e5 e6 e7
  simp [e3, e5, e6, e7]

/-- C22 is false in general: accumulating a two-component ciphertext after a three-component one reads
past the end of its components. -/
theorem c22_shrinking_witness (a2 a3 : Ct C) (b : C.Poly) (x : Ct C) (hx : x.lazy = [])
    (h3 : a3.c.length = 3) (h2 : a2.c.length = 2) (hp3 : a3.power = x.power)
    (hp2 : a2.power = x.power) :
    lazyRun x [(a3, b), (a2, b)] = .ub .outOfBounds ∧
    ∃ z, eagerRun x [(a3, b), (a2, b)] = .ok z := by
  obtain ⟨lz, e1, e2, e3⟩ := lazy_step x a3 b hp3.symm (by simp [hx])
  constructor
  · unfold lazyRun
    rw [List.foldlM_cons, e1, Outcome.bind_ok, List.foldlM_cons]
    have : fusedAbsorbAddLazily { x with lazy := lz } a2 b = .ub .outOfBounds := by
      unfold fusedAbsorbAddLazily
      dsimp only
      rw [if_neg (by simpa using hp2.symm), if_neg (by omega), if_neg (by omega)]
      have hpad : padTo lz a2.c = lz := by unfold padTo; rw [if_neg (by omega)]
      rw [hpad]
      have : loop lz.length (fun j lz => do
          let u ← rd lz j
          let v ← rd a2.c j
          wr lz j (u + v * b)) lz = .ub .outOfBounds := by
        apply loop_ub (fun j (r : List C.Poly) => r.length = lz.length) 2 (by omega)
        · rfl
        · intro j r hj hr
          refine ⟨r.set j (r.getD j 0 + a2.c.getD j 0 * b), ?_, by simpa using hr⟩
          rw [rd_getD 0 (by omega), Outcome.bind_ok, rd_getD 0 (by omega), Outcome.bind_ok,
            wr_ok (by omega)]
        · intro r hr
          rw [rd_getD 0 (by omega), Outcome.bind_ok, rd_ub (by omega), Outcome.bind_ub]
      rw [this, Outcome.bind_ub]
    rw [this, Outcome.bind_ub]
  · unfold eagerRun
    simp only [List.foldlM_cons, List.foldlM_nil]
    rw [show fusedAbsorbAdd x a3 b = .ok { x with c := fusedComponents b x.c a3.c } by
      unfold fusedAbsorbAdd; rw [if_neg (by simpa using hp3.symm)]]
    rw [Outcome.bind_ok]
    rw [show fusedAbsorbAdd { x with c := fusedComponents b x.c a3.c } a2 b =
        .ok { x with c := fusedComponents b (fusedComponents b x.c a3.c) a2.c } by
      unfold fusedAbsorbAdd; rw [if_neg (by simpa using hp2.symm)]]
    exact ⟨_, rfl⟩

/-- Merging without pending operations is an error. -/
theorem c22_merge_empty (x : Ct C) (hx : x.lazy = []) : mergeLazy x = .err .failedPrecondition := by
  unfold mergeLazy; rw [if_pos hx]

example :
    (do let x : Ct exCtx := ⟨[![1, 2]], 1, []⟩
        let y ← lazyRun x [(⟨[![3, 4], ![5, 6]], 1, []⟩, ![2, 2]), (⟨[![7, 8], ![9, 10]], 1, []⟩, ![3, 1])]
        let z ← mergeLazy y
        return z.c.map fun f => (List.ofFn f).map ZMod.val) = .ok [[28, 18], [37, 22]] := by
  decide +kernel

/-! ## C24 -/

/-- C24: switching the key and a ciphertext to a smaller modulus `q' ≤ q` with `q' = q mod t`.  `S` are
the integer coefficients of the key.  The new noisy plaintext is congruent to the old one modulo `t`
and differs from `(q'/q)` times it by at most `((t+1)/2 + 1) * sum_i |S|_1^i`. -/
theorem c24_switch_modulus_partial (hC : C.Ok) (hD : D.Ok) (hl : C.l = D.l) (hqp : D.q ≤ C.q) {t : ℕ}
    (ht : 0 < t) (htq : t ≤ D.q) (hmod : C.q % t = D.q % t) (S : Fin C.n → ℤ) (x : Ct C)
    {φ : Fin C.n → ℤ} (hx : Noisy (C.toNtt (modq C.q S)) x φ) :
    ∃ x' φ', switchModulus D hl x t = .ok x' ∧ x'.power = x.power ∧
      Noisy (D.toNtt (modq D.q fun i => S (Fin.cast (by unfold Ctx.n; rw [hl]) i))) x' φ' ∧
      (∀ i, φ' i ≡ φ (Fin.cast (by unfold Ctx.n; rw [hl]) i) [ZMOD t]) ∧
      (∀ i, |(C.q : ℤ) * φ' i - D.q * φ (Fin.cast (by unfold Ctx.n; rw [hl]) i)| ≤
        C.q * ((t + 1) / 2 + 1 : ℕ) * ∑ j ∈ range x.c.length, norm1 S ^ j) := by
  obtain ⟨w', q', l', psi'⟩ := D
  dsimp only at hl hqp htq hmod
  subst hl
  haveI : NeZero C.q := hC.neZero
  haveI : NeZero q' := hD.neZero
  -- integer lifts of the old and new components
  let X : C.Poly → Fin C.n → ℤ := fun f i => ((C.fromNtt f i).val : ℤ)
  let Z : C.Poly → Fin C.n → ℤ := fun f i => switchInt C.q q' t (C.fromNtt f i).val
  have hq0 : 0 < C.q := hC.prime.pos
  have hX : ∀ f, C.toNtt (modq C.q (X f)) = f := by
    intro f
    have : modq C.q (X f) = C.fromNtt f := by
      funext i
      show (((C.fromNtt f i).val : ℤ) : ZMod C.q) = _
      rw [Int.cast_natCast, ZMod.natCast_val, ZMod.cast_id', id]
    rw [this, toNtt_fromNtt hC]
  have hsp := fun (f : C.Poly) i => switchInt_spec (q := q') (x := (C.fromNtt f i).val) hq0 ht
  -- the old phase over the integers
  have hold : modq C.q φ = modq C.q (hphase S (x.c.map X)) := by
    apply toNtt_inj hC
    rw [show C.toNtt (modq C.q φ) = phase (C.toNtt (modq C.q S)) x.c from hx, modq_hphase,
      toNtt_hphase hC, List.map_map, List.map_map]
    congr 1
    conv_lhs => rw [← List.map_id x.c]
    apply List.map_congr_left
    intro f _
    exact (hX f).symm
  have hK : ∀ i, ∃ K : ℤ, hphase S (x.c.map X) i = φ i + C.q * K := by
    intro i
    have := congrFun hold i
    simp only [modq] at this
    rw [ZMod.intCast_eq_intCast_iff] at this
    obtain ⟨K, hK⟩ := this.dvd
    exact ⟨K, by omega⟩
  choose K hK using hK
  have e1 : switchModulus (C := C) ⟨w', q', C.l, psi'⟩ rfl x t = .ok
      { c := x.c.map fun f => Ctx.toNtt ⟨w', q', C.l, psi'⟩ (modq q' (Z f)), power := x.power } := by
    unfold switchModulus
    rw [if_neg (by omega), if_neg (by simpa using hmod)]
    congr 1
    congr 1
    apply List.map_congr_left
    intro f _
    congr 1
    funext i
    exact switchCoeff_cast hC.fits hqp ht htq (ZMod.val_lt _)
  refine ⟨_, fun i => hphase S (x.c.map Z) i - q' * K i, e1, rfl, ?_, ?_, ?_⟩
  · have h1 : modq q' (fun i => hphase S (x.c.map Z) i - q' * K i) =
        modq q' (hphase S (x.c.map Z)) := by
      funext i; simp [modq]
    show Ctx.toNtt ⟨w', q', C.l, psi'⟩ (modq q' _) = phase (Ctx.toNtt ⟨w', q', C.l, psi'⟩ (modq q' S)) (x.c.map fun f => Ctx.toNtt ⟨w', q', C.l, psi'⟩ (modq q' (Z f)))
    rw [h1, modq_hphase, toNtt_hphase hD, List.map_map, List.map_map]
    rfl
  · intro i
    have h1 : modq t (hphase S (x.c.map Z)) = modq t (hphase S (x.c.map X)) := by
      rw [modq_hphase, modq_hphase, List.map_map, List.map_map]
      congr 1
      apply List.map_congr_left
      intro f _
      funext j
      exact (ZMod.intCast_eq_intCast_iff _ _ _).mpr (hsp f j).1
    have h2 := (ZMod.intCast_eq_intCast_iff _ _ _).mp (congrFun h1 i)
    have h3 : (C.q : ℤ) ≡ q' [ZMOD t] := by
      have : C.q ≡ q' [MOD t] := hmod
      exact_mod_cast (Int.natCast_modEq_iff.mpr this)
    calc hphase S (x.c.map Z) i - q' * K i ≡ hphase S (x.c.map X) i - C.q * K i [ZMOD t] :=
          h2.sub (Int.ModEq.mul_right _ h3.symm)
      _ = φ i := by rw [hK i]; ring
  · intro i
    have h1 := congrFun (hphase_lin S (C.q : ℤ) q' Z X x.c) i
    have h2 : (C.q : ℤ) * (hphase S (x.c.map Z) i - q' * K i) - q' * φ i =
        hphase S (x.c.map fun f j => (C.q : ℤ) * Z f j - q' * X f j) i := by
      rw [h1, hK i]; ring
    show |(C.q : ℤ) * (hphase S (x.c.map Z) i - q' * K i) - q' * φ i| ≤ _
    rw [h2]
    have h3 := hphase_bound S ((C.q : ℤ) * ((t + 1) / 2 + 1 : ℕ)) (by positivity)
      (x.c.map fun f j => (C.q : ℤ) * Z f j - q' * X f j) (by
        intro f hf j
        obtain ⟨g, _, rfl⟩ := List.mem_map.mp hf
        exact (hsp g j).2) i
    rwa [List.length_map] at h3

/-- C24: incompatible moduli are rejected, by ciphertexts and by keys. -/
theorem c24_incompatible (hl : C.l = D.l) (x : Ct C) (k : Key C) {t : ℕ} (ht : 0 < t)
    (hmod : C.q % t ≠ D.q % t) :
    switchModulus D hl x t = .err .invalidArgument ∧
    (plaintextModulus D.w k.logT = .ok t → k.switchModulus D hl = .err .invalidArgument) := by
  constructor
  · unfold switchModulus; rw [if_neg (by omega), if_pos hmod]
  · intro h
    unfold Key.switchModulus
    rw [h, Outcome.bind_ok, if_neg (by omega), if_pos hmod]

/-- C24: a key with coefficients `S` in `(-q/2, q/2]` becomes the key with the same integer
coefficients, modulo the smaller modulus. -/
theorem c24_switch_key_partial (hC : C.Ok) (hD : D.Ok) (hl : C.l = D.l) (hqp : D.q ≤ C.q) (k : Key C) {t : ℕ}
    (htm : plaintextModulus D.w k.logT = .ok t) (ht : 0 < t) (hmod : C.q % t = D.q % t)
    (S : Fin C.n → ℤ) (hS : ∀ i, -(C.q : ℤ) < 2 * S i ∧ 2 * S i ≤ C.q)
    (hk : k.key = C.toNtt (modq C.q S)) :
    ∃ k', k.switchModulus D hl = .ok k' ∧
      k'.key = D.toNtt (modq D.q fun i => S (Fin.cast (by unfold Ctx.n; rw [hl]) i)) ∧
      k'.logT = k.logT ∧ k'.variance = k.variance ∧ k'.ptq = D.q ∧ k'.tMod.val = t % k'.ptq := by
  haveI := hC.neZero
  haveI := hD.neZero
  unfold Key.switchModulus
  rw [htm, Outcome.bind_ok, if_neg (by omega), if_neg (by simpa using hmod)]
  refine ⟨_, rfl, ?_, rfl, rfl, rfl, ?_⟩
  · dsimp only
    congr 1
    funext i
    rw [hk, fromNtt_toNtt hC]
    exact switchKeyCoeff_cast (by have := hC.fits; omega) hD.prime.pos hqp _
      (hS _).1 (hS _).2
  · dsimp only
    exact ZMod.val_natCast _ _

/-- C24: a message survives the switch: if the noisy plaintext is small enough for both moduli, the
switched ciphertext decrypts under the switched key to what the original decrypts to. -/
theorem c24_decrypt_same_partial (hC : C.Ok) (hD : D.Ok) (hl : C.l = D.l) (hqp : D.q ≤ C.q) (k : Key C) {t : ℕ}
    (htm : plaintextModulus D.w k.logT = .ok t) (ht : 0 < t) (htq : t < D.q)
    (htk : k.tMod.val = t) (hmod : C.q % t = D.q % t)
    (S : Fin C.n → ℤ) (hS : ∀ i, -(C.q : ℤ) < 2 * S i ∧ 2 * S i ≤ C.q)
    (hk : k.key = C.toNtt (modq C.q S)) (x : Ct C) {φ : Fin C.n → ℤ} (hx : Noisy k.key x φ)
    (hb : ∀ i, 2 * (D.q * |φ i| + C.q * ((t + 1) / 2 + 1 : ℕ) * ∑ j ∈ range x.c.length, norm1 S ^ j)
      < C.q * D.q) :
    ∃ k' x', k.switchModulus D hl = .ok k' ∧ switchModulus D hl x t = .ok x' ∧
      decrypt k x = .ok (fun i => (φ i % (t : ℤ)).toNat) ∧
      decrypt k' x' = .ok (fun i => (φ (Fin.cast (by unfold Ctx.n; rw [hl]) i) % (t : ℤ)).toNat) := by
  obtain ⟨k', a1, a2, a3, a4, a5, a6⟩ := c24_switch_key_partial hC hD hl hqp k htm ht hmod S hS hk
  rw [hk] at hx
  obtain ⟨x', φ', b1, b2, b3, b4, b5⟩ := c24_switch_modulus_partial hC hD hl hqp ht htq.le hmod S x hx
  have hp0 : (0 : ℤ) < C.q := by exact_mod_cast hC.prime.pos
  have hq0 : (0 : ℤ) < D.q := by exact_mod_cast hD.prime.pos
  have hB : (0 : ℤ) ≤ C.q * ((t + 1) / 2 + 1 : ℕ) * ∑ j ∈ range x.c.length, norm1 S ^ j :=
    mul_nonneg (by positivity) (Finset.sum_nonneg fun j _ => pow_nonneg (norm1_nonneg S) j)
  refine ⟨k', x', a1, b1, ?_, ?_⟩
  · rw [← htk]
    refine c19_decrypt_small hC k x (by omega) (by omega) (by rw [Noisy, hk]; exact hx) fun i => ?_
    have := hb i
    have h1 : (D.q : ℤ) * (2 * |φ i|) < D.q * C.q := by nlinarith
    exact lt_of_mul_lt_mul_left h1 hq0.le
  · have htv : k'.tMod.val = t := by rw [a6, a5, Nat.mod_eq_of_lt htq]
    have := c19_decrypt_small hD k' x' (by omega) (by omega) (by rw [Noisy, a2]; exact b3) fun i => ?_
    · rw [this, htv]
      congr 1
      funext i
      rw [(b4 i).eq]
    · have h1 := hb (Fin.cast (by unfold Ctx.n; rw [hl]) i)
      have h2 := b5 i
      have h3 : |(C.q : ℤ) * φ' i| ≤ |(C.q : ℤ) * φ' i - D.q * φ (Fin.cast (by unfold Ctx.n; rw [hl]) i)| +
          |D.q * φ (Fin.cast (by unfold Ctx.n; rw [hl]) i)| := by
        have := abs_add_le ((C.q : ℤ) * φ' i - D.q * φ (Fin.cast (by unfold Ctx.n; rw [hl]) i))
          (D.q * φ (Fin.cast (by unfold Ctx.n; rw [hl]) i))
        rwa [sub_add_cancel] at this
      rw [abs_mul, abs_mul, abs_of_pos hp0, abs_of_pos hq0] at h3
      have h4 : (C.q : ℤ) * (2 * |φ' i|) < C.q * D.q := by linarith
      exact lt_of_mul_lt_mul_left h4 hp0.le

/-- A context with a larger modulus, `q = 12289`, `n = 2`. -/
def exCtx2 : Ctx := ⟨16, 12289, 1, 1479⟩

theorem exCtx2_ok : exCtx2.Ok :=
  ⟨by unfold exCtx2; norm_num, by decide, by decide, by decide, by decide, by
    show (1479 : ZMod 12289) ^ 2 ^ 1 = -1; decide⟩

/-- From `q = 12289` to `q' = 97` with `t = 3`: the key `1 - X` and a ciphertext are switched and
decrypt to the original message. -/
example : 12289 % 3 = 97 % 3 ∧
    (do let k ← Key.sample (C := exCtx2) ![1, 12288] 8 1
        let x := encrypt k (exCtx2.toNtt ![2, 1]) ![5000, 6100] ![100, 12089]
        let k' ← Key.switchModulus (C := exCtx2) exCtx rfl k
        let x' ← switchModulus (C := exCtx2) exCtx rfl x 3
        let r ← decrypt k x
        let r' ← decrypt k' x'
        return (List.ofFn r, List.ofFn r')) = .ok ([2, 1], [2, 1]) := by decide +kernel

/-- C24 fails when the new modulus is larger.  With `t = 9`, both moduli 97 and 241 are 7 modulo `t`, so
the switch is accepted, but a key coefficient -1 modulo 97 becomes 224 instead of `240 = -1` modulo 241,
and the ciphertext coefficient 3 becomes 10, which is 1 and not 3 modulo `t`. -/
theorem c24_larger_modulus_witness :
    97 % 9 = 241 % 9 ∧ switchKeyCoeff 16 97 241 96 % 241 = 224 ∧
    switchCoeff 16 97 241 9 3 % 241 = 10 ∧ 10 % 9 ≠ 3 % 9 := by decide +kernel

/-! ## C25 -/

/-- `Substitute` of a context accepts exactly the odd powers in `[0, 2n)`. -/
theorem ctx_substitute (F : C.Poly) (k : ℕ) (hk : k % 2 = 1) (hk2 : k < 2 * C.n) :
    C.substitute F k = .ok (subst C.l k F) := by
  unfold Ctx.substitute
  rw [if_neg, if_neg]
  · simp
  · omega
  · rw [Int.tmod_eq_emod_of_nonneg (by omega)]; omega

theorem mapM_ok {α β : Type} (f : α → Outcome β) (g : α → β) (L : List α)
    (h : ∀ a ∈ L, f a = .ok (g a)) : L.mapM f = .ok (L.map g) := by
  induction L with
  | nil => rfl
  | cons a L ih =>
    rw [List.mapM_cons, h a (by simp), Outcome.bind_ok, ih fun b hb => h b (by simp [hb])]
    rfl

theorem phase_subst (k : ℕ) (s : C.Poly) (L : List C.Poly) :
    phase (subst C.l k s) (L.map (subst C.l k)) = subst C.l k (phase s L) := by
  induction L with
  | nil => simp only [List.map_nil, phase_nil]; rfl
  | cons a L ih => simp only [List.map_cons, phase_cons, ih]; rfl

/-- C25 (partial: the product of the powers must fit an `int`): a substituted ciphertext is a ciphertext
of the substituted plaintext under the substituted key, and records the power `k * power mod 2n`. -/
theorem c25_substitute_partial (h : C.Ok) (key : Key C) {t : ℕ}
    (htm : plaintextModulus C.w key.logT = .ok t) (x : Ct C) (hx : x.c ≠ [])
    {φ : Fin C.n → ℤ} (hφ : Noisy key.key x φ) (k : ℕ) (hk : k % 2 = 1) (hk2 : k < 2 * C.n)
    (hp0 : 0 ≤ x.power) (hp : x.power * k < 2 ^ 31) :
    ∃ x' key', substitute x k = .ok x' ∧ key.substitute k = .ok key' ∧
      Noisy key'.key x' (substPow k φ) ∧ x'.power = (x.power * k) % (2 * C.n : ℕ) ∧
      key'.logT = key.logT ∧ x'.c.length = x.c.length := by
  have e1 : substitute x k = .ok
      { c := x.c.map (subst C.l k), power := (x.power * k).tmod (2 * C.n : ℕ) } := by
    unfold substitute
    rw [mapM_ok _ (subst C.l k) _ (fun F _ => ctx_substitute F k hk hk2), Outcome.bind_ok]
    unfold Transcription.int32
    have hk0 : (0 : ℤ) ≤ x.power * k := by positivity
    rw [if_pos ⟨by omega, hp⟩, Outcome.bind_ok, if_neg (by simpa using hx)]
    simp
  have e2 : ∃ key', key.substitute k = .ok key' ∧ key'.key = subst C.l k key.key ∧
      key'.logT = key.logT := by
    unfold Key.substitute
    rw [htm, Outcome.bind_ok, ctx_substitute _ k hk hk2, Outcome.bind_ok]
    exact ⟨_, rfl, rfl, rfl⟩
  obtain ⟨key', e2, e3, e4⟩ := e2
  refine ⟨_, key', e1, e2, ?_, ?_, e4, by simp⟩
  · unfold Noisy at *
    rw [modq_substPow, toNtt_substPow h k hk, hφ, e3]
    exact (phase_subst k key.key x.c).symm
  · dsimp only
    rw [Int.tmod_eq_emod_of_nonneg (by positivity)]

/-- C25: even, negative or too large powers are rejected for keys and for non-empty ciphertexts. -/
theorem c25_bad_power (x : Ct C) (hx : x.c ≠ []) (k : ℤ)
    (hk : k < 0 ∨ k % 2 = 0 ∨ 2 * C.n ≤ k) : substitute x k = .err .invalidArgument := by
  have hs : ∀ F : C.Poly, C.substitute F k = .err .invalidArgument := by
    intro F
    unfold Ctx.substitute
    by_cases h1 : 0 > k ∨ k.tmod 2 = 0
    · rw [if_pos h1]
    · rw [if_neg h1, if_pos]
      have h2 : ¬ k < 0 := fun hc => h1 (Or.inl hc)
      have t1 : k.tmod 2 = k % 2 := Int.tmod_eq_emod_of_nonneg (by omega)
      omega
  unfold substitute
  obtain ⟨c, power, lz⟩ := x
  cases c with
  | nil => exact absurd rfl hx
  | cons a c => simp only [List.mapM_cons, hs a, Outcome.bind_err]

/-- C25 is false for the largest ring dimension: two substitutions by `2n - 1` overflow the `int`
product of the powers. -/
theorem c25_power_overflow_witness (hl : C.l = 15) (x : Ct C) (hx : x.c ≠ []) (hp : x.power = 1) :
    (do let y ← substitute x 65535; substitute y 65535) = .ub .signedOverflow := by
  have hn : C.n = 32768 := by unfold Ctx.n; rw [hl]; norm_num
  have e : ∀ y : Ct C, y.c ≠ [] → y.power * 65535 < 2 ^ 31 → 0 ≤ y.power →
      substitute y (65535 : ℕ) = .ok { c := y.c.map (subst C.l 65535)
                                       power := (y.power * (65535 : ℕ)).tmod (2 * C.n : ℕ) } := by
    intro y hy hpy hp0
    unfold substitute
    rw [mapM_ok _ (subst C.l 65535) _ (fun F _ => ctx_substitute F 65535 rfl (by rw [hn]; norm_num)),
      Outcome.bind_ok]
    unfold Transcription.int32
    rw [if_pos ⟨by push_cast; omega, by exact_mod_cast hpy⟩, Outcome.bind_ok, if_neg (by simpa using hy)]
    simp
  have e1 := e x hx (by rw [hp]; norm_num) (by omega)
  push_cast at e1
  rw [e1, Outcome.bind_ok]
  unfold substitute
  have e2 := fun F : C.Poly => ctx_substitute F 65535 rfl (by rw [hn]; norm_num)
  push_cast at e2
  rw [mapM_ok _ (subst C.l 65535) _ (fun F _ => e2 F), Outcome.bind_ok, hp]
  have : (C.n : ℤ) = 32768 := by exact_mod_cast hn
  unfold Transcription.int32
  rw [if_neg, Outcome.bind_ub]
  dsimp only
  rw [hl]
  decide

/-- Substituting `X -> X^3` (`n = 2`) in the message `2 + X` gives `2 + X^3 = 2 - X`. -/
example :
    (do let k ← Key.sample (C := exCtx) ![1, 96] 8 2
        let x := encrypt k (exCtx.toNtt ![2, 1]) ![50, 61] ![1, 0]
        let x' ← substitute x 3
        let k' ← k.substitute 3
        let r ← decrypt k' x'
        return (x'.power, List.ofFn r)) = .ok (3, [2, 4]) := by decide +kernel

/-- C25: encryptions of `m₁` and `m₂` under keys `s₁` and `s₂` with the same pad `a` add up to an
encryption of `m₁ + m₂` under the sum (difference) of the keys with pad `a`. -/
theorem c25_key_add (k₁ k₂ : Key C) (m₁ m₂ a e₁ e₂ : C.Poly) :
    (k₁.compatible k₂ = true →
      (∃ k, k₁.add k₂ = .ok k ∧
        encryptWithPad k (m₁ + m₂) a (e₁ + e₂) =
          encryptWithPad k₁ m₁ a e₁ + encryptWithPad k₂ m₂ a e₂) ∧
      (∃ k, k₁.sub k₂ = .ok k ∧
        encryptWithPad k (m₁ - m₂) a (e₁ - e₂) =
          encryptWithPad k₁ m₁ a e₁ - encryptWithPad k₂ m₂ a e₂)) ∧
    (k₁.variance ≠ k₂.variance ∨ k₁.logT ≠ k₂.logT ∨ k₁.tWord ≠ k₂.tWord →
      k₁.add k₂ = .err .invalidArgument ∧ k₁.sub k₂ = .err .invalidArgument) := by
  constructor
  · intro h
    have ht : k₁.tUnderQ = k₂.tUnderQ := by
      unfold Key.compatible at h
      simp only [Bool.and_eq_true, decide_eq_true_eq] at h
      unfold Key.tUnderQ
      rw [h.2]
    constructor
    · refine ⟨{ k₁ with key := k₁.key + k₂.key }, by unfold Key.add; rw [if_pos h], ?_⟩
      have hu : ({ k₁ with key := k₁.key + k₂.key } : Key C).tUnderQ = k₁.tUnderQ := rfl
      unfold encryptWithPad
      rw [hu, ← ht, toNtt_add]
      funext i
      simp only [scalarMul, Pi.add_apply, Pi.mul_apply]
      ring
    · refine ⟨{ k₁ with key := k₁.key - k₂.key }, by unfold Key.sub; rw [if_pos h], ?_⟩
      have hu : ({ k₁ with key := k₁.key - k₂.key } : Key C).tUnderQ = k₁.tUnderQ := rfl
      unfold encryptWithPad
      rw [hu, ← ht, toNtt_sub]
      funext i
      simp only [scalarMul, Pi.add_apply, Pi.mul_apply, Pi.sub_apply]
      ring
  · intro h
    have : k₁.compatible k₂ = false := by
      unfold Key.compatible
      simp only [Bool.and_eq_false_iff, decide_eq_false_iff_not]
      tauto
    unfold Key.add Key.sub
    simp [this]

/-- Two sampled keys with the same parameters are compatible, with different plaintext moduli not. -/
example :
    (do let k ← Key.sample (C := exCtx) ![1, 96] 8 2
        let k' ← Key.sample (C := exCtx) ![0, 1] 8 2
        let k'' ← Key.sample (C := exCtx) ![0, 1] 8 3
        return (k.compatible k', k.compatible k'')) = .ok (true, false) := by decide +kernel

/-- C25: the null key is the zero of adding and subtracting keys with the same parameters, and what is "encrypted" under
it does not depend on the pad. -/
theorem c25_null {s : C.Poly} {variance logT : ℕ} {k : Key C} (hk : Key.sample s variance logT = .ok k) :
    ∃ z, Key.null C variance logT = .ok z ∧ k.add z = .ok k ∧ z.add k = .ok k ∧ k.sub z = .ok k ∧
      ∀ m a a' e, encryptWithPad z m a e = encryptWithPad z m a' e := by
  unfold Key.sample at hk
  obtain ⟨t, ht, hk⟩ := Outcome.bind_eq_ok.mp hk
  cases hk
  refine ⟨{ key := 0, variance := variance, logT := logT, ptq := C.q, tMod := t }, ?_, ?_, ?_, ?_, fun m a a' e => ?_⟩
  · unfold Key.null
    rw [ht, Outcome.bind_ok]
    rfl
  · simp [Key.add, Key.compatible, Key.tWord]
  · simp [Key.add, Key.compatible, Key.tWord]
  · simp [Key.sub, Key.compatible, Key.tWord]
  · unfold encryptWithPad
    simp

/-- Adding the null key to a sampled key. -/
example :
    (do let k ← Key.sample (C := exCtx) ![1, 96] 8 2
        let z ← Key.null exCtx 8 2
        let k' ← k.add z
        return (List.ofFn z.key, List.ofFn k'.key == List.ofFn k.key)) = .ok ([0, 0], true) := by decide +kernel

end Shell
