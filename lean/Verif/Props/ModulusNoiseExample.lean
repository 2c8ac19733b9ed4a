import Verif.Props.ModulusNoise
import Verif.Props.WordKeyNoiseExample
/-! The hypotheses of C107 are met. -/

namespace Shell
open Spec Rns WordCt ErrorTrack MParams Ntt NttRing Sym Real
variable {σ : Type}

/-- On these tapes a secret key, two ciphertexts, a relinearization key and a Galois key are made; the circuit is run on them,
the key and the result are switched to a smaller modulus, and the result decrypts to `(2 + X)(1 + 3 X)` at `X^3` modulo 5 and
`X^2 + 1`. -/
example : (do
    let p ← create 32 16777153
    let q ← initNtt p 1
    let p' ← create 32 1048573
    let q' ← initNtt p' 1
    let (k, _) ← Word.Key.sample bytesSource p q 1 2 2 [17, 200, 3, 91, 250, 4, 66, 129]
    let k' ← k.switchModulus p' q'
    let m0 ← Poly.convertToNtt p q ([2, 1].map (Mont.importInt p))
    let m1 ← Poly.convertToNtt p q ([1, 3].map (Mont.importInt p))
    let (xs, _) ← encryptAll bytesSource 8 k 0 [m0, m1] ((List.range 200).map (Fin.ofNat 256))
    let rk ← Word.RKey.create tapeRng 8 k .hkdf 3 8 1 (List.range 200) ((List.range 200).map fun i => (i * i) % 256)
    let gk ← Word.galoisCreate tapeRng 8 k .hkdf 3 8 (List.range 200) ((List.range 200).map fun i => (i * i + 7) % 256)
    let y ← exLastCircuit.run ⟨p, (5 : ℚ), WordCt.relinearize rk fun c b => .ok (c * b),
      fun _ => substituteAndSwitch q (fun c b => .ok (c * b)) gk,
      fun i => ⟨(xs.getD i ⟨[], 0, 0⟩).c, (xs.getD i ⟨[], 0, 0⟩).power, 132, []⟩, fun _ => []⟩
    let z ← WordCt.switchModulus p p' q q' (95 : ℚ) y 5
    .ok (k.key.length, k'.p.modulus, z.c.length, ← Word.decrypt k' ⟨z.c, z.power, 0⟩)) =
    .ok (2, 1048573, 2, List.ofFn fun j : Fin (2 ^ 1) => (exLastCircuit.eval (fun _ => 3)
      (fun i => if i = 0 then ![2, 1] else ![1, 3]) (fun _ => ![0, 0]) j % 5).toNat) := by
  decide +kernel

/-- The secret keys of C107 for variances of at most 2: all of them are short. -/
example {p : MParams} {q : NttParams} (h : create 32 16777153 = .ok p) (hp : Nat.Prime 16777153) (hq : initNtt p 1 = .ok q)
    (G : Gen σ) (hG : Words G) {s s' : σ} {k : Word.Key} (hk : Word.Key.sample G p q 1 2 2 s = .ok (k, s')) :
    ShortKey 16777153 (2 ^ 1) k (8 / √3 * (2 * (5 : ℕ) / ((5 : ℕ) + 3)) * 2 ^ 1) :=
  c107_small_variance h (by norm_num) hp hq G hG (by norm_num) (by norm_num) (by
    have h3 : √(3 : ℝ) ≤ 2 := Real.sqrt_le_iff.mpr ⟨by norm_num, by norm_num⟩
    have h3' : 0 < √(3 : ℝ) := by positivity
    have : 4 ≤ 8 / √(3 : ℝ) := by rw [le_div_iff₀ h3']; linarith
    push_cast
    linarith) hk

/-- `c107_key` for variance 8 and 1024 coefficients: keys with coefficients of more than 4 on average are never seen. -/
example {p : MParams} {q : NttParams} (h : create 32 16760833 = .ok p) (hp : Nat.Prime 16760833) (hq : initNtt p 10 = .ok q)
    (L : ℕ) : bytesProbability L (fun tape => ∃ k s, Word.Key.sample bytesSource p q 10 8 4 tape = .ok (k, s) ∧
      ¬ ShortKey 16760833 (2 ^ 10) k (4 * 2 ^ 10)) ≤ exp (-300) := by
  refine (c107_key h (by norm_num) hp hq (variance := 8) (logT := 4) (by norm_num) (by norm_num) (by norm_num)
    (B := 4) (by norm_num) L).trans ?_
  rw [Real.exp_le_exp]
  norm_num

/-- The estimate of the result of the circuit is below half the smaller modulus. -/
example : ∃ b, (⟨5, 2, 24⟩ : ErrorParams).bRelinearize (2 ^ 1) 1 8 = .ok b ∧
    2 * ((1048573 : ℕ) / (16777153 : ℕ) * ((⟨5, 2, 24⟩ : ErrorParams).bEncryption (2 ^ 1) *
      (⟨5, 2, 24⟩ : ErrorParams).bEncryption (2 ^ 1) + b + b) + (⟨5, 2, 20⟩ : ErrorParams).bScale (2 ^ 1)) < (1048573 : ℕ) := by
  have h2 : √((2 ^ 1 : ℕ) : ℝ) ≤ 2 := Real.sqrt_le_iff.mpr ⟨by norm_num, by norm_num⟩
  have h22 : √((2 : ℕ) : ℝ) ≤ 2 := Real.sqrt_le_iff.mpr ⟨by norm_num, by norm_num⟩
  have h3 : √(3 : ℝ) ≤ 2 := Real.sqrt_le_iff.mpr ⟨by norm_num, by norm_num⟩
  have h3' : 1 ≤ √(3 : ℝ) := Real.one_le_sqrt.mpr (by norm_num)
  have p2 := Real.sqrt_nonneg ((2 : ℕ) : ℝ)
  refine ⟨_, rfl, ?_⟩
  have e1 : (⟨5, 2, 24⟩ : ErrorParams).bEncryption (2 ^ 1) ≤ 140 := by
    unfold ErrorParams.bEncryption ErrorParams.exportT ErrorParams.sigma
    dsimp only
    rw [show ((5 % 2 ^ 64 : ℕ) : ℝ) = 5 by norm_num]
    have : 5 * √((2 ^ 1 : ℕ) : ℝ) * (√3 + 6 * √((2 : ℕ) : ℝ)) ≤ 5 * 2 * (2 + 6 * 2) := by gcongr
    linarith
  have e0 : 0 ≤ (⟨5, 2, 24⟩ : ErrorParams).bEncryption (2 ^ 1) := by
    unfold ErrorParams.bEncryption ErrorParams.exportT ErrorParams.sigma
    positivity
  have e4 : (⟨5, 2, 20⟩ : ErrorParams).bScale (2 ^ 1) ≤ 5 * (3 + 16) := by
    unfold ErrorParams.bScale ErrorParams.exportT
    dsimp only
    rw [show ((5 % 2 ^ 64 : ℕ) : ℝ) = 5 by norm_num]
    have a1 : √(3 * (2 ^ 1 : ℕ) : ℝ) ≤ 3 := Real.sqrt_le_iff.mpr ⟨by norm_num, by norm_num⟩
    have a2 : √(1 / 3 : ℝ) ≤ 1 := Real.sqrt_le_iff.mpr ⟨by norm_num, by norm_num⟩
    refine (mul_le_mul_of_nonneg_left (add_le_add a1 (mul_le_mul_of_nonneg_left a2 (by positivity))) (by norm_num)).trans ?_
    norm_num
  have e2 : 8 / √3 * (⟨5, 2, 24⟩ : ErrorParams).exportT * ((8 + 24 - 1) / 8 : ℕ) * (⟨5, 2, 24⟩ : ErrorParams).sigma *
      (2 ^ 1 : ℕ) * (2 ^ 8 : ℕ) * (1 : ℕ) ≤ 8 * 5 * 3 * 2 * 2 * 256 := by
    unfold ErrorParams.exportT ErrorParams.sigma
    dsimp only
    rw [show ((5 % 2 ^ 64 : ℕ) : ℝ) = 5 by norm_num, show (((8 + 24 - 1) / 8 : ℕ) : ℝ) = 3 by norm_num]
    have h4 : 8 / √3 ≤ 8 := by
      rw [div_le_iff₀ (by linarith)]
      linarith
    have : 8 / √3 * 5 * 3 * √((2 : ℕ) : ℝ) ≤ 8 * 5 * 3 * 2 := by gcongr
    push_cast at this ⊢
    linarith
  have e3 := mul_le_mul e1 e1 e0 (by norm_num)
  push_cast at e2 e3 e4 ⊢
  linarith

/-- `c107_program` for these moduli: two messages of two coefficients in `0, 1, 2`, keys of base `2^8` and thus three
digits. -/
example {p p' : MParams} {q q' : NttParams} (h : create 32 16777153 = .ok p) (hp : Nat.Prime 16777153)
    (hq : initNtt p 1 = .ok q) (h' : create 32 1048573 = .ok p') (hp' : Nat.Prime 1048573) (hq' : initNtt p' 1 = .ok q')
    (G : Gen σ) (hG : Words G) {s s' : σ} {k : Word.Key} (hk : Word.Key.sample G p q 1 2 2 s = .ok (k, s'))
    (m : ℕ → Fin (2 ^ 1) → ℕ) (hm : ∀ i j, m i j ≤ 2) {pts : List (List ℕ)} (hl : pts.length = 2)
    (hpt : ∀ i < pts.length, ValidPoly 16777153 (2 ^ 1) (pts.getD i []))
    (hpt' : ∀ i < pts.length, HasCoeffs p q 16777153 (2 ^ 1) (pts.getD i []) fun j => (m i j : ZMod 16777153))
    {f : List ℕ} (hf : ValidPoly 16777153 (2 ^ 1) f)
    (hf' : HasCoeffs p q 16777153 (2 ^ 1) f fun j => (((m 0 j : ℕ) : ℤ) : ZMod 16777153)) (seed : List ℕ)
    (L : Fin 2 ⊕ Fin 1 → ℕ) :
    ∃ k', k.switchModulus p' q' = .ok k' ∧
    tapesProbability L (fun t => ∃ xs s rk, ∃ gk : ℕ → Word.RKey, encryptAll bytesSource 8 k 0 pts (t (.inl 0)) = .ok (xs, s) ∧
      Word.RKey.create tapeRng 8 k .hkdf (3 : ℕ) 8 1 seed ((t (.inl 1)).map Fin.val) = .ok rk ∧
      (∀ j : Fin 1, Word.galoisCreate tapeRng 8 k .hkdf (3 : ℕ) 8 seed ((t (.inr j)).map Fin.val) = .ok (gk j)) ∧
      ∃ u : WordCircuit, u.Fits 32 3 ∧ u.SwitchesLast ∧ u.Within pts.length 1 16777153 ∧ u.len = 2 ∧
        ¬ ∃ y z, u.run ⟨p, ErrorParams.bPlaintext ⟨5, 2, 24⟩ (2 ^ 1),
            WordCt.relinearize rk (ErrorParams.bRelinearize ⟨5, 2, 24⟩ (2 ^ 1)),
            fun i => substituteAndSwitch q (ErrorParams.bRelinearize ⟨5, 2, 24⟩ (2 ^ 1)) (gk i),
            freshObj ⟨5, 2, 24⟩ (2 ^ 1) xs, fun _ => f⟩ = .ok y ∧
          WordCt.switchModulus p p' q q' (ErrorParams.bScale ⟨5, 2, 20⟩ (2 ^ 1)) y (2 ^ 2 + 1) = .ok z ∧
          (2 * z.error < (1048573 : ℕ) → Word.decrypt k' ⟨z.c, z.power, 0⟩ =
            .ok (List.ofFn fun j => (u.eval (fun _ => 3) (fun i j => (m i j : ℤ)) (fun _ j => (m 0 j : ℤ)) j %
              (2 ^ 2 + 1)).toNat))) ≤ 32 * exp (-30) + 2 * exp (-54) := by
  have hlog : p.logModulus = 24 := by
    rw [logModulus_of_create h]
    decide +kernel
  have hsz : ∀ i, SizeAtMost (fun j => (m i j : ℤ)) (ErrorParams.bPlaintext ⟨5, 2, 24⟩ (2 ^ 1)) := fun i =>
    exParams_plaintext (fun j => (m i j : ℤ)) (by
      have h0 := hm i 0
      have h1 := hm i 1
      simp only [Nat.abs_cast]
      have h0' : ((m i 0 : ℕ) : ℤ) ≤ 2 := by exact_mod_cast h0
      have h1' : ((m i 1 : ℕ) : ℤ) ≤ 2 := by exact_mod_cast h1
      exact (add_le_add h0' h1').trans (by norm_num))
  have hshort : ShortKey 16777153 (2 ^ 1) k (8 / √3 * (2 * (5 : ℕ) / ((5 : ℕ) + 3)) * 2 ^ 1) :=
    c107_small_variance h (by norm_num) hp hq G hG (by norm_num) (by norm_num) (by
      have h3 : √(3 : ℝ) ≤ 2 := Real.sqrt_le_iff.mpr ⟨by norm_num, by norm_num⟩
      have h3' : 0 < √(3 : ℝ) := by positivity
      have : 4 ≤ 8 / √(3 : ℝ) := by rw [le_div_iff₀ h3']; linarith
      push_cast
      linarith) hk
  obtain ⟨k', e1, key⟩ := c107_program h (by norm_num) hp hq h' hp' hq' (by norm_num) G hk (by norm_num) (by norm_num)
    (by norm_num) (T := 5) (by norm_num) hshort (by norm_num) (by norm_num)
    (P := ⟨5, 2, 24⟩) (Q := ⟨5, 2, 20⟩) rfl rfl hlog.symm rfl m (fun i _ => hsz i) hpt hpt' (fun _ j => (m 0 j : ℤ))
    (fun _ => hsz 0) (f := fun _ => f) (fun _ => hf) (fun _ => hf') 8 0 .hkdf 3 (b := 8) (by norm_num) (fun _ => 3) seed
    (fun _ => seed) 1 L
  refine ⟨k', e1, key.trans (le_of_eq ?_)⟩
  rw [hlog, hl]
  norm_num
  ring

end Shell
