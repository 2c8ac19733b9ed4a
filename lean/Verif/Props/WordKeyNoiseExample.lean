import Verif.Props.WordKeyNoise
/-! The hypotheses of C106 are met. -/

namespace Shell
open Spec Rns WordCt ErrorTrack MParams Ntt NttRing Sym Real
variable {σ : Type}

/-- The product of two ciphertexts, relinearized and rotated. -/
def exLastCircuit : WordCircuit := .rotate (.relin (.mul (.input 0) (.input 1))) 0

example : exLastCircuit.Fits 32 3 ∧ exLastCircuit.SwitchesLast ∧ exLastCircuit.Within 2 1 16777153 := by
  simp [exLastCircuit, WordCircuit.Fits, WordCircuit.len, WordCircuit.SwitchesLast, WordCircuit.Switchless,
    WordCircuit.Within]

/-- On these tapes a secret key, two ciphertexts, a relinearization key and a Galois key are made, and the circuit is run on
them; the result decrypts to `(2 + X)(1 + 3 X)` at `X^3` modulo 5 and `X^2 + 1`. -/
example : (do
    let p ← create 32 16777153
    let q ← initNtt p 1
    let (k, _) ← Word.Key.sample bytesSource p q 1 8 2 [17, 200, 3, 91, 250, 4, 66, 129]
    let m0 ← Poly.convertToNtt p q ([2, 1].map (Mont.importInt p))
    let m1 ← Poly.convertToNtt p q ([1, 3].map (Mont.importInt p))
    let (xs, _) ← encryptAll bytesSource 8 k 0 [m0, m1] ((List.range 200).map (Fin.ofNat 256))
    let rk ← Word.RKey.create tapeRng 8 k .hkdf 3 8 1 (List.range 200) ((List.range 200).map fun i => (i * i) % 256)
    let gk ← Word.galoisCreate tapeRng 8 k .hkdf 3 8 (List.range 200) ((List.range 200).map fun i => (i * i + 7) % 256)
    let y ← exLastCircuit.run ⟨p, (5 : ℚ), WordCt.relinearize rk fun c b => .ok (c * b),
      fun _ => substituteAndSwitch q (fun c b => .ok (c * b)) gk,
      fun i => ⟨(xs.getD i ⟨[], 0, 0⟩).c, (xs.getD i ⟨[], 0, 0⟩).power, 132, []⟩, fun _ => []⟩
    .ok (y.c.length, ← Word.decrypt k ⟨y.c, y.power, 0⟩)) =
    .ok (2, List.ofFn fun j : Fin (2 ^ 1) => (exLastCircuit.eval (fun _ => 3) (fun i => if i = 0 then ![2, 1] else ![1, 3])
      (fun _ => ![0, 0]) j % 5).toNat) := by
  decide +kernel

/-- The estimate of its result is below half the modulus. -/
example : ∃ b, (⟨5, 8, 24⟩ : ErrorParams).bRelinearize (2 ^ 1) 1 8 = .ok b ∧
    2 * ((⟨5, 8, 24⟩ : ErrorParams).bEncryption (2 ^ 1) * (⟨5, 8, 24⟩ : ErrorParams).bEncryption (2 ^ 1) + b + b) <
      (16777153 : ℕ) := by
  have h2 : √((2 ^ 1 : ℕ) : ℝ) ≤ 2 := Real.sqrt_le_iff.mpr ⟨by norm_num, by norm_num⟩
  have h3 : √(3 : ℝ) ≤ 2 := Real.sqrt_le_iff.mpr ⟨by norm_num, by norm_num⟩
  have h3' : 1 ≤ √(3 : ℝ) := Real.one_le_sqrt.mpr (by norm_num)
  have h8 : √((8 : ℕ) : ℝ) ≤ 3 := Real.sqrt_le_iff.mpr ⟨by norm_num, by norm_num⟩
  have p8 := Real.sqrt_nonneg ((8 : ℕ) : ℝ)
  refine ⟨_, rfl, ?_⟩
  have e1 : (⟨5, 8, 24⟩ : ErrorParams).bEncryption (2 ^ 1) ≤ 200 := by
    unfold ErrorParams.bEncryption ErrorParams.exportT ErrorParams.sigma
    dsimp only
    rw [show ((5 % 2 ^ 64 : ℕ) : ℝ) = 5 by norm_num]
    have : 5 * √((2 ^ 1 : ℕ) : ℝ) * (√3 + 6 * √((8 : ℕ) : ℝ)) ≤ 5 * 2 * (2 + 6 * 3) := by gcongr
    linarith
  have e0 : 0 ≤ (⟨5, 8, 24⟩ : ErrorParams).bEncryption (2 ^ 1) := by
    unfold ErrorParams.bEncryption ErrorParams.exportT ErrorParams.sigma
    positivity
  have e2 : 8 / √3 * (⟨5, 8, 24⟩ : ErrorParams).exportT * ((8 + 24 - 1) / 8 : ℕ) * (⟨5, 8, 24⟩ : ErrorParams).sigma *
      (2 ^ 1 : ℕ) * (2 ^ 8 : ℕ) * (1 : ℕ) ≤ 8 * 5 * 3 * 3 * 2 * 256 := by
    unfold ErrorParams.exportT ErrorParams.sigma
    dsimp only
    rw [show ((5 % 2 ^ 64 : ℕ) : ℝ) = 5 by norm_num, show (((8 + 24 - 1) / 8 : ℕ) : ℝ) = 3 by norm_num]
    have h4 : 8 / √3 ≤ 8 := by
      rw [div_le_iff₀ (by linarith)]
      linarith
    have : 8 / √3 * 5 * 3 * √((8 : ℕ) : ℝ) ≤ 8 * 5 * 3 * 3 := by gcongr
    push_cast at this ⊢
    linarith
  have e3 := mul_le_mul e1 e1 e0 (by norm_num)
  push_cast at e2 e3 ⊢
  linarith

/-- `c106_program` for this modulus: two messages of two coefficients in `0, 1, 2`, keys of base `2^8` and thus three digits. -/
example {p : MParams} {q : NttParams} (h : create 32 16777153 = .ok p) (hp : Nat.Prime 16777153) (hq : initNtt p 1 = .ok q)
    (G : Gen σ) {s s' : σ} {k : Word.Key} (hk : Word.Key.sample G p q 1 8 2 s = .ok (k, s')) (m : ℕ → Fin (2 ^ 1) → ℕ)
    (hm : ∀ i j, m i j ≤ 2) {pts : List (List ℕ)} (hl : pts.length = 2)
    (hpt : ∀ i < pts.length, ValidPoly 16777153 (2 ^ 1) (pts.getD i []))
    (hpt' : ∀ i < pts.length, HasCoeffs p q 16777153 (2 ^ 1) (pts.getD i []) fun j => (m i j : ZMod 16777153))
    {f : List ℕ} (hf : ValidPoly 16777153 (2 ^ 1) f)
    (hf' : HasCoeffs p q 16777153 (2 ^ 1) f fun j => (((m 0 j : ℕ) : ℤ) : ZMod 16777153)) (seed : List ℕ)
    (L : Fin 2 ⊕ Fin 1 → ℕ) :
    tapesProbability L (fun t => ∃ xs s rk, ∃ gk : ℕ → Word.RKey, encryptAll bytesSource 8 k 0 pts (t (.inl 0)) = .ok (xs, s) ∧
      Word.RKey.create tapeRng 8 k .hkdf (3 : ℕ) 8 1 seed ((t (.inl 1)).map Fin.val) = .ok rk ∧
      (∀ j : Fin 1, Word.galoisCreate tapeRng 8 k .hkdf (3 : ℕ) 8 seed ((t (.inr j)).map Fin.val) = .ok (gk j)) ∧
      ∃ u : WordCircuit, u.Fits 32 3 ∧ u.SwitchesLast ∧ u.Within pts.length 1 16777153 ∧
        ¬ ∃ y, u.run ⟨p, ErrorParams.bPlaintext ⟨5, 8, 24⟩ (2 ^ 1),
            WordCt.relinearize rk (ErrorParams.bRelinearize ⟨5, 8, 24⟩ (2 ^ 1)),
            fun i => substituteAndSwitch q (ErrorParams.bRelinearize ⟨5, 8, 24⟩ (2 ^ 1)) (gk i),
            freshObj ⟨5, 8, 24⟩ (2 ^ 1) xs, fun _ => f⟩ = .ok y ∧
          (2 * y.error < (16777153 : ℕ) → Word.decrypt k ⟨y.c, y.power, 0⟩ =
            .ok (List.ofFn fun j => (u.eval (fun _ => 3) (fun i j => (m i j : ℤ)) (fun _ j => (m 0 j : ℤ)) j %
              (2 ^ 2 + 1)).toNat))) ≤ 32 * exp (-30) + 2 * exp (-54) := by
  have hlog : p.logModulus = 24 := by
    rw [logModulus_of_create h]
    decide +kernel
  have hsz : ∀ i, SizeAtMost (fun j => (m i j : ℤ)) (ErrorParams.bPlaintext ⟨5, 8, 24⟩ (2 ^ 1)) := fun i =>
    exParams_plaintext (fun j => (m i j : ℤ)) (by
      have h0 := hm i 0
      have h1 := hm i 1
      simp only [Nat.abs_cast]
      have h0' : ((m i 0 : ℕ) : ℤ) ≤ 2 := by exact_mod_cast h0
      have h1' : ((m i 1 : ℕ) : ℤ) ≤ 2 := by exact_mod_cast h1
      exact (add_le_add h0' h1').trans (by norm_num))
  have key := c106_program h (by norm_num) hp hq G hk (by norm_num) (by norm_num) (by norm_num) (by norm_num)
    (P := ⟨5, 8, 24⟩) rfl rfl hlog.symm m (fun i _ => hsz i) hpt hpt' (fun _ j => (m 0 j : ℤ)) (fun _ => hsz 0)
    (f := fun _ => f) (fun _ => hf) (fun _ => hf') 8 0 .hkdf 3 (b := 8) (by norm_num) (fun _ => 3) seed (fun _ => seed) 1 L
  refine key.trans (le_of_eq ?_)
  rw [hlog, hl]
  norm_num
  ring

end Shell
