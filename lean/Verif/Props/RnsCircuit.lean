import Verif.Props.RnsEncrypt
import Verif.Props.RnsBfvEncoder
/-!
# Properties C53 and C55: computations on RNS ciphertexts, and decryption of their results
-/

namespace Shell
open Spec Rns
variable {σ τ ι : Type} {w l : ℕ} {S Φ Ψ M : Fin (2 ^ l) → ℤ} {x y : RCt} {pt : RPoly}

/-! ### Decryption -/

theorem decryptChecks_ok {k : RKey} (hk : KeyIs l k S) (hms : x.ms = k.ms) (hp : x.power = 1) (h0 : x.c ≠ [])
    (hx : Encrypts l S x Φ) : k.decryptChecks x = .ok () := by
  unfold RKey.decryptChecks
  rw [if_neg (by simp [hp]), logN_eq h0 hx.2, Outcome.bind_ok, if_neg (by simp [hk.2.1]), if_neg (by simp [hms])]

/-- C55: decryption decodes the polynomial that the ciphertext stands for. -/
theorem c55_decrypt {k : RKey} (hg : ∀ m ∈ k.ms, GoodModulus w l m) (hne : k.ms ≠ []) (hk : KeyIs l k S)
    (hms : x.ms = k.ms) (hp : x.power = 1) (h0 : x.c ≠ []) (hx : Encrypts l S x Φ) :
    ∃ r, r.ntt = true ∧ Represents l k.ms r Φ ∧
      (∀ E, k.decryptBgv E x = E.decodeBgv r k.ms) ∧ (∀ E, k.decryptBfv E x = E.decodeBfv r k.ms) ∧
      ∀ W e hats hatInvs, hats.length = k.ms.length → hatInvs.length = k.ms.length →
        k.decryptBgvWithCrt W e x hats hatInvs = ffDecodeBgvWithCrt W e r k.ms hats hatInvs := by
  have hc := decryptChecks_ok hk hms hp h0 hx
  have hx2 := hx.2
  rw [hp] at hx2
  change Phase l (substPow 1 S) x Φ at hx2
  rw [Expand.substPow_one] at hx2
  obtain ⟨r, r1, r2, r3⟩ := c55_raw_decrypt (hms ▸ hg) (hms ▸ hne) hk hms.symm hx2
  rw [hms] at r3
  refine ⟨r, r2, r3, fun E => ?_, fun E => ?_, fun W e hats hatInvs h1 h2 => ?_⟩
  · unfold RKey.decryptBgv; rw [hc, Outcome.bind_ok, r1, Outcome.bind_ok]
  · unfold RKey.decryptBfv; rw [hc, Outcome.bind_ok, r1, Outcome.bind_ok]
  · unfold RKey.decryptBgvWithCrt
    rw [hc, Outcome.bind_ok, if_neg (by omega), r1, Outcome.bind_ok]

/-! ### Computations -/

/-- A computation on ciphertexts `ι` with plaintext polynomials. -/
inductive RCircuit (ι : Type) where
  | input (i : ι)
  | neg (a : RCircuit ι)
  | add (a b : RCircuit ι)
  | sub (a b : RCircuit ι)
  | mul (a b : RCircuit ι)
  | addPlain (a : RCircuit ι) (p : RPoly)
  | subPlain (a : RCircuit ι) (p : RPoly)
  | absorb (a : RCircuit ι) (p : RPoly)
  | absorbInt (a : RCircuit ι) (c : ℕ)
  | fused (a b : RCircuit ι) (p : RPoly)

/-- Running the computation with the library. -/
def RCircuit.run (x : ι → RCt) : RCircuit ι → Outcome RCt
  | input i => .ok (x i)
  | neg a => do (← run x a).negate
  | add a b => do (← run x a).add (← run x b)
  | sub a b => do (← run x a).sub (← run x b)
  | mul a b => do (← run x a).mul (← run x b)
  | addPlain a p => do (← run x a).addPlain p
  | subPlain a p => do (← run x a).subPlain p
  | absorb a p => do (← run x a).absorb p
  | absorbInt a c => do (← run x a).absorbInt c
  | fused a b p => do (← run x a).fusedAbsorbAdd (← run x b) p

/-- The same computation on integer polynomials modulo `X^n + 1`; `M` gives the plaintexts. -/
def RCircuit.evalPoly {n : ℕ} (F : ι → Fin n → ℤ) (M : RPoly → Fin n → ℤ) : RCircuit ι → Fin n → ℤ
  | input i => F i
  | neg a => -evalPoly F M a
  | add a b => evalPoly F M a + evalPoly F M b
  | sub a b => evalPoly F M a - evalPoly F M b
  | mul a b => negMul (evalPoly F M a) (evalPoly F M b)
  | addPlain a p => evalPoly F M a + M p
  | subPlain a p => evalPoly F M a - M p
  | absorb a p => negMul (evalPoly F M a) (M p)
  | absorbInt a c => fun i => c * evalPoly F M a i
  | fused a b p => evalPoly F M a + negMul (evalPoly F M b) (M p)

/-- The same computation on numbers modulo `t`. -/
def RCircuit.eval {R : Type} [CommRing R] (f : ι → R) (m : RPoly → R) : RCircuit ι → R
  | input i => f i
  | neg a => -eval f m a
  | add a b => eval f m a + eval f m b
  | sub a b => eval f m a - eval f m b
  | mul a b => eval f m a * eval f m b
  | addPlain a p => eval f m a + m p
  | subPlain a p => eval f m a - m p
  | absorb a p => eval f m a * m p
  | absorbInt a c => c * eval f m a
  | fused a b p => eval f m a + eval f m b * m p

/-- The number of components of the result; `none` if ciphertexts of different degree are added. -/
def RCircuit.comps (d : ι → ℕ) : RCircuit ι → Option ℕ
  | input i => some (d i)
  | neg a => comps d a
  | add a b | sub a b | fused a b _ => do
    let x ← comps d a
    let y ← comps d b
    if x = y then some x else none
  | mul a b => do
    let x ← comps d a
    let y ← comps d b
    some (x + y - 1)
  | addPlain a _ | subPlain a _ | absorb a _ | absorbInt a _ => comps d a

/-- The plaintexts of the computation represent `M` and are in NTT form; the scalars are words. -/
def RCircuit.PlainsOk (w l : ℕ) (ms : List Modulus) (M : RPoly → Fin (2 ^ l) → ℤ) : RCircuit ι → Prop
  | input _ => True
  | neg a => PlainsOk w l ms M a
  | add a b | sub a b | mul a b => PlainsOk w l ms M a ∧ PlainsOk w l ms M b
  | addPlain a p | subPlain a p | absorb a p =>
    PlainsOk w l ms M a ∧ p.ntt = true ∧ Represents l ms p (M p)
  | absorbInt a c => PlainsOk w l ms M a ∧ c < 2 ^ w
  | fused a b p => PlainsOk w l ms M a ∧ PlainsOk w l ms M b ∧ p.ntt = true ∧ Represents l ms p (M p)

/-- C53: a computation on ciphertexts at one level and under one power of the secret stands for the same
computation on the polynomials that the inputs stand for.  It is rejected exactly if it adds ciphertexts of
different degrees. -/
theorem c53_circuit {ms : List Modulus} (hg : ∀ m ∈ ms, GoodModulus w l m) (hne : ms ≠ []) {pow : ℤ}
    {x : ι → RCt} {F : ι → Fin (2 ^ l) → ℤ} {M : RPoly → Fin (2 ^ l) → ℤ}
    (hx : ∀ i, (x i).ms = ms ∧ (x i).power = pow ∧ (x i).c ≠ [] ∧ Encrypts l S (x i) (F i))
    (u : RCircuit ι) (hu : u.PlainsOk w l ms M) :
    match u.comps fun i => (x i).c.length with
    | some d => ∃ r, u.run x = .ok r ∧ r.ms = ms ∧ r.power = pow ∧ r.c.length = d ∧ 0 < d ∧
        Encrypts l S r (u.evalPoly F M)
    | none => u.run x = .err .invalidArgument := by
  induction u with
  | input i =>
    obtain ⟨h1, h2, h3, h4⟩ := hx i
    exact ⟨x i, rfl, h1, h2, rfl, List.length_pos_iff.mpr h3, h4⟩
  | neg a ih =>
    have ih := ih hu
    simp only [RCircuit.comps, RCircuit.run]
    cases h : a.comps (fun i => (x i).c.length) with
    | none => rw [h] at ih; dsimp only at ih ⊢; rw [ih]; rfl
    | some d =>
      rw [h] at ih
      obtain ⟨r, r1, r2, r3, r4, r5, r6⟩ := ih
      obtain ⟨z, z1, z2, z3, z4⟩ := c53_negate (r2 ▸ hg) r6
      exact ⟨z, by rw [r1, Outcome.bind_ok, z1], z2.1.trans r2, z2.2.trans r3, z3.trans r4, r5, z4⟩
  | add a b ia ib =>
    have ia := ia hu.1
    have ib := ib hu.2
    simp only [RCircuit.comps, RCircuit.run]
    cases h : a.comps (fun i => (x i).c.length) with
    | none => rw [h] at ia; dsimp only [Option.bind_eq_bind, Option.bind_none] at ia ⊢; rw [ia]; rfl
    | some d =>
      rw [h] at ia
      obtain ⟨r, r1, r2, r3, r4, r5, r6⟩ := ia
      cases h' : b.comps (fun i => (x i).c.length) with
      | none =>
        rw [h'] at ib; dsimp only [Option.bind_eq_bind, Option.bind_none, Option.bind_some] at ib ⊢
        rw [r1, ib]; rfl
      | some e =>
        rw [h'] at ib
        obtain ⟨s, s1, s2, s3, s4, s5, s6⟩ := ib
        dsimp only [Option.bind_eq_bind, Option.bind_some]
        by_cases hd : d = e
        · obtain ⟨z, z1, z2, z3, z4⟩ := c53_add (r2 ▸ hg) (s2.trans r2.symm) (s3.trans r3.symm)
            (by omega) r6 s6
          rw [if_pos hd]
          exact ⟨z, by rw [r1, Outcome.bind_ok, s1, Outcome.bind_ok, z1], z2.1.trans r2, z2.2.trans r3,
            z3.trans r4, r5, z4⟩
        · rw [if_neg hd]
          dsimp only
          rw [r1, Outcome.bind_ok, s1, Outcome.bind_ok]
          exact (c53_rejects r s ⟨0, [], true⟩ (.inl (by omega))).1
  | sub a b ia ib =>
    have ia := ia hu.1
    have ib := ib hu.2
    simp only [RCircuit.comps, RCircuit.run]
    cases h : a.comps (fun i => (x i).c.length) with
    | none => rw [h] at ia; dsimp only [Option.bind_eq_bind, Option.bind_none] at ia ⊢; rw [ia]; rfl
    | some d =>
      rw [h] at ia
      obtain ⟨r, r1, r2, r3, r4, r5, r6⟩ := ia
      cases h' : b.comps (fun i => (x i).c.length) with
      | none =>
        rw [h'] at ib; dsimp only [Option.bind_eq_bind, Option.bind_none, Option.bind_some] at ib ⊢
        rw [r1, ib]; rfl
      | some e =>
        rw [h'] at ib
        obtain ⟨s, s1, s2, s3, s4, s5, s6⟩ := ib
        dsimp only [Option.bind_eq_bind, Option.bind_some]
        by_cases hd : d = e
        · obtain ⟨z, z1, z2, z3, z4⟩ := c53_sub (r2 ▸ hg) (s2.trans r2.symm) (s3.trans r3.symm)
            (by omega) r6 s6
          rw [if_pos hd]
          exact ⟨z, by rw [r1, Outcome.bind_ok, s1, Outcome.bind_ok, z1], z2.1.trans r2, z2.2.trans r3,
            z3.trans r4, r5, z4⟩
        · rw [if_neg hd]
          dsimp only
          rw [r1, Outcome.bind_ok, s1, Outcome.bind_ok]
          exact (c53_rejects r s ⟨0, [], true⟩ (.inl (by omega))).2.1
  | mul a b ia ib =>
    have ia := ia hu.1
    have ib := ib hu.2
    simp only [RCircuit.comps, RCircuit.run]
    cases h : a.comps (fun i => (x i).c.length) with
    | none => rw [h] at ia; dsimp only [Option.bind_eq_bind, Option.bind_none] at ia ⊢; rw [ia]; rfl
    | some d =>
      rw [h] at ia
      obtain ⟨r, r1, r2, r3, r4, r5, r6⟩ := ia
      cases h' : b.comps (fun i => (x i).c.length) with
      | none =>
        rw [h'] at ib; dsimp only [Option.bind_eq_bind, Option.bind_none, Option.bind_some] at ib ⊢
        rw [r1, ib]; rfl
      | some e =>
        rw [h'] at ib
        obtain ⟨s, s1, s2, s3, s4, s5, s6⟩ := ib
        obtain ⟨z, z1, z2, z3, z4⟩ := c53_mul (r2 ▸ hg) (r2 ▸ hne) (s2.trans r2.symm) (s3.trans r3.symm)
          (List.length_pos_iff.mp (r4.symm ▸ r5)) r6 s6
        exact ⟨z, by rw [r1, Outcome.bind_ok, s1, Outcome.bind_ok, z1], z2.1.trans r2, z2.2.trans r3,
          by rw [z3, r4, s4], by omega, z4⟩
  | addPlain a p ih =>
    have ih := ih hu.1
    simp only [RCircuit.comps, RCircuit.run]
    cases h : a.comps (fun i => (x i).c.length) with
    | none => rw [h] at ih; dsimp only at ih ⊢; rw [ih]; rfl
    | some d =>
      rw [h] at ih
      obtain ⟨r, r1, r2, r3, r4, r5, r6⟩ := ih
      obtain ⟨z, z1, z2, z3, z4⟩ := c53_addPlain (r2 ▸ hg) (List.length_pos_iff.mp (r4.symm ▸ r5)) hu.2.1
        (r2 ▸ hu.2.2) r6
      exact ⟨z, by rw [r1, Outcome.bind_ok, z1], z2.1.trans r2, z2.2.trans r3, z3.trans r4, r5, z4⟩
  | subPlain a p ih =>
    have ih := ih hu.1
    simp only [RCircuit.comps, RCircuit.run]
    cases h : a.comps (fun i => (x i).c.length) with
    | none => rw [h] at ih; dsimp only at ih ⊢; rw [ih]; rfl
    | some d =>
      rw [h] at ih
      obtain ⟨r, r1, r2, r3, r4, r5, r6⟩ := ih
      obtain ⟨z, z1, z2, z3, z4⟩ := c53_subPlain (r2 ▸ hg) (List.length_pos_iff.mp (r4.symm ▸ r5)) hu.2.1
        (r2 ▸ hu.2.2) r6
      exact ⟨z, by rw [r1, Outcome.bind_ok, z1], z2.1.trans r2, z2.2.trans r3, z3.trans r4, r5, z4⟩
  | absorb a p ih =>
    have ih := ih hu.1
    simp only [RCircuit.comps, RCircuit.run]
    cases h : a.comps (fun i => (x i).c.length) with
    | none => rw [h] at ih; dsimp only at ih ⊢; rw [ih]; rfl
    | some d =>
      rw [h] at ih
      obtain ⟨r, r1, r2, r3, r4, r5, r6⟩ := ih
      obtain ⟨z, z1, _, z2, z3, z4⟩ := c53_absorb (r2 ▸ hg) hu.2.1 (r2 ▸ hu.2.2) r6
      exact ⟨z, by rw [r1, Outcome.bind_ok, z1], z2.1.trans r2, z2.2.trans r3, z3.trans r4, r5, z4⟩
  | absorbInt a c ih =>
    have ih := ih hu.1
    simp only [RCircuit.comps, RCircuit.run]
    cases h : a.comps (fun i => (x i).c.length) with
    | none => rw [h] at ih; dsimp only at ih ⊢; rw [ih]; rfl
    | some d =>
      rw [h] at ih
      obtain ⟨r, r1, r2, r3, r4, r5, r6⟩ := ih
      obtain ⟨z, z1, z2, z3, z4⟩ := (c53_absorb_scalar (r2 ▸ hg) r6).1 c hu.2
      exact ⟨z, by rw [r1, Outcome.bind_ok, z1], z2.1.trans r2, z2.2.trans r3, z3.trans r4, r5, z4⟩
  | fused a b p ia ib =>
    have ia := ia hu.1
    have ib := ib hu.2.1
    simp only [RCircuit.comps, RCircuit.run]
    cases h : a.comps (fun i => (x i).c.length) with
    | none => rw [h] at ia; dsimp only [Option.bind_eq_bind, Option.bind_none] at ia ⊢; rw [ia]; rfl
    | some d =>
      rw [h] at ia
      obtain ⟨r, r1, r2, r3, r4, r5, r6⟩ := ia
      cases h' : b.comps (fun i => (x i).c.length) with
      | none =>
        rw [h'] at ib; dsimp only [Option.bind_eq_bind, Option.bind_none, Option.bind_some] at ib ⊢
        rw [r1, ib]; rfl
      | some e =>
        rw [h'] at ib
        obtain ⟨s, s1, s2, s3, s4, s5, s6⟩ := ib
        dsimp only [Option.bind_eq_bind, Option.bind_some]
        by_cases hd : d = e
        · obtain ⟨z, z1, z2, z3, z4⟩ := c53_fused (r2 ▸ hg) (s2.trans r2.symm) (s3.trans r3.symm)
            (by omega) hu.2.2.1 (r2 ▸ hu.2.2.2) r6 s6
          rw [if_pos hd]
          exact ⟨z, by rw [r1, Outcome.bind_ok, s1, Outcome.bind_ok, z1], z2.1.trans r2, z2.2.trans r3,
            z3.trans r4, r5, z4⟩
        · rw [if_neg hd]
          dsimp only
          rw [r1, Outcome.bind_ok, s1, Outcome.bind_ok]
          exact (c53_rejects r s p (.inl (by omega))).2.2.1

/-! ### Decrypting the results, BGV -/

/-- The slots of the computed polynomial are the computed slots. -/
theorem slots_evalPoly {N : ℕ} {zeta : ZMod N} (h : zeta ^ 2 ^ l = -1) (h1 : 1 ≤ l) (F : ι → Fin (2 ^ l) → ℤ)
    (M : RPoly → Fin (2 ^ l) → ℤ) (i : ℕ) (u : RCircuit ι) :
    slotsOf zeta l (u.evalPoly F M) i =
      u.eval (fun j => slotsOf zeta l (F j) i) (fun p => slotsOf zeta l (M p) i) := by
  have smul : ∀ (c : ℤ) (G : Fin (2 ^ l) → ℤ), slotsOf zeta l (fun k => c * G k) i = c * slotsOf zeta l G i := by
    intro c G
    unfold slotsOf slotValue
    simp only [Int.cast_mul, mul_assoc, Finset.mul_sum]
  induction u with
  | input j => rfl
  | neg a ih =>
    have : -(a.evalPoly F M) = fun k => (-1) * a.evalPoly F M k := by funext k; simp
    simp only [RCircuit.evalPoly, RCircuit.eval]
    rw [this, smul, ih]; simp
  | add a b ia ib =>
    simp only [RCircuit.evalPoly, RCircuit.eval]
    rw [(c50_ring h h1 _ _ i).1, ia, ib]
  | sub a b ia ib =>
    simp only [RCircuit.evalPoly, RCircuit.eval]
    rw [(c50_ring h h1 _ _ i).2.1, ia, ib]
  | mul a b ia ib =>
    simp only [RCircuit.evalPoly, RCircuit.eval]
    rw [(c50_ring h h1 _ _ i).2.2, ia, ib]
  | addPlain a p ia =>
    simp only [RCircuit.evalPoly, RCircuit.eval]
    rw [(c50_ring h h1 _ _ i).1, ia]
  | subPlain a p ia =>
    simp only [RCircuit.evalPoly, RCircuit.eval]
    rw [(c50_ring h h1 _ _ i).2.1, ia]
  | absorb a p ia =>
    simp only [RCircuit.evalPoly, RCircuit.eval]
    rw [(c50_ring h h1 _ _ i).2.2, ia]
  | absorbInt a c ih =>
    simp only [RCircuit.evalPoly, RCircuit.eval]
    rw [smul, ih, Int.cast_natCast]
  | fused a b p ia ib =>
    simp only [RCircuit.evalPoly, RCircuit.eval]
    rw [(c50_ring h h1 _ _ i).1, (c50_ring h h1 _ _ i).2.2, ia, ib]

/-- A bound on the coefficients of the result of a computation, from bounds on the inputs. -/
def RCircuit.bound (n : ℕ) (b : ι → ℤ) (m : RPoly → ℤ) : RCircuit ι → ℤ
  | input i => b i
  | neg a => bound n b m a
  | add a c | sub a c => bound n b m a + bound n b m c
  | mul a c => n * bound n b m a * bound n b m c
  | addPlain a p | subPlain a p => bound n b m a + m p
  | absorb a p => n * bound n b m a * m p
  | absorbInt a c => c * bound n b m a
  | fused a c p => bound n b m a + n * bound n b m c * m p

theorem negMul_le {F G : Fin (2 ^ l) → ℤ} {a b : ℤ} (hF : ∀ i, |F i| ≤ a) (hG : ∀ i, |G i| ≤ b)
    (i : Fin (2 ^ l)) : |negMul F G i| ≤ (2 ^ l : ℕ) * a * b := by
  have hb : 0 ≤ b := (abs_nonneg _).trans (hG i)
  refine (negMul_bound F G b hb hG i).trans (mul_le_mul_of_nonneg_right ?_ hb)
  unfold norm1
  refine (Finset.sum_le_sum fun i _ => hF i).trans ?_
  simp

/-- C53: the growth of the polynomials in a computation. -/
theorem c53_growth {F : ι → Fin (2 ^ l) → ℤ} {M : RPoly → Fin (2 ^ l) → ℤ} {b : ι → ℤ} {m : RPoly → ℤ}
    (hF : ∀ i j, |F i j| ≤ b i) (hM : ∀ p j, |M p j| ≤ m p) (u : RCircuit ι) (j : Fin (2 ^ l)) :
    |u.evalPoly F M j| ≤ u.bound (2 ^ l) b m := by
  induction u generalizing j with
  | input i => exact hF i j
  | neg a ih => simpa [RCircuit.evalPoly, RCircuit.bound] using ih j
  | add a c ia ic => exact (abs_add_le _ _).trans (add_le_add (ia j) (ic j))
  | sub a c ia ic => exact (abs_sub _ _).trans (add_le_add (ia j) (ic j))
  | mul a c ia ic => exact negMul_le ia ic j
  | addPlain a p ia => exact (abs_add_le _ _).trans (add_le_add (ia j) (hM p j))
  | subPlain a p ia => exact (abs_sub _ _).trans (add_le_add (ia j) (hM p j))
  | absorb a p ia => exact negMul_le ia (hM p) j
  | absorbInt a c ih =>
    simp only [RCircuit.evalPoly, RCircuit.bound]
    rw [abs_mul, Nat.abs_cast]
    exact mul_le_mul_of_nonneg_left (ih j) (Int.natCast_nonneg c)
  | fused a c p ia ic => exact (abs_add_le _ _).trans (add_le_add (ia j) (negMul_le ic (hM p) j))

theorem slots_noise {N : ℕ} {zeta : ZMod N} (F R : Fin (2 ^ l) → ℤ)
    (i : ℕ) : slotsOf zeta l (fun j => F j + N * R j) i = slotsOf zeta l F i := by
  unfold slotsOf slotValue
  simp

/-- C53: **BGV with slots.**  Encryptions of `M j` plus `t` times noise, put through a computation, decrypt to
the same computation carried out in every slot modulo `t`, as long as the bound on the result leaves
decryption correct. -/
theorem c53_bgv_slots (est : Estimate) {e : FFEncoder} (he : GoodEncoder w l e) {m0 : Modulus}
    {rest : List Modulus} {lev : ℕ} (hms : e.ctx.qs.take lev = m0 :: rest) (ht : e.ctx.t ≤ m0.N) {k : RKey}
    (hkm : k.ms = m0 :: rest) (hk : KeyIs l k S) {x : ι → RCt} {F R : ι → Fin (2 ^ l) → ℤ}
    {M : RPoly → Fin (2 ^ l) → ℤ}
    (hx : ∀ i, (x i).ms = m0 :: rest ∧ (x i).power = 1 ∧ (x i).c ≠ [] ∧
      Encrypts l S (x i) (fun j => F i j + e.ctx.t * R i j))
    (u : RCircuit ι) (hu : u.PlainsOk w l (m0 :: rest) M) {d : ℕ}
    (hd : u.comps (fun i => (x i).c.length) = some d) {b : ι → ℤ} {m : RPoly → ℤ}
    (hb : ∀ i j, |F i j + e.ctx.t * R i j| ≤ b i) (hm : ∀ p j, |M p j| ≤ m p)
    (hB : 2 * lsbBound e.ctx.t (dropOrder (m0 :: rest)) (u.bound (2 ^ l) b m) < m0.N) :
    ∃ r, u.run x = .ok r ∧ k.decryptBgv (finiteFieldEncoder est e) r =
      .ok (List.ofFn fun i : Fin (2 ^ l) => (u.eval (fun j => slotsOf (nttRoot l e.mt) l (F j) i)
        (fun p => slotsOf (nttRoot l e.mt) l (M p) i)).val) := by
  have hg : ∀ q ∈ m0 :: rest, GoodModulus w l q := fun q hq => by
    rw [← hms] at hq; exact he.ctx.qs q (List.mem_of_mem_take hq)
  have hc := c53_circuit hg (by simp) hx u hu
  rw [hd] at hc
  obtain ⟨r, r1, r2, r3, r4, r5, r6⟩ := hc
  obtain ⟨z, z1, z2, z3, -⟩ := c55_decrypt (k := k) (by rw [hkm]; exact hg) (by simp [hkm]) hk (by rw [r2, hkm]) r3
    (List.length_pos_iff.mp (r4.symm ▸ r5)) r6
  refine ⟨r, r1, ?_⟩
  rw [z3]
  show ffDecodeBgv e z k.ms = _
  rw [hkm] at z2 ⊢
  rw [c50_decode_bgv he hms ht z2 (fun i => ?_)]
  · congr 1
    congr 1
    funext i
    obtain ⟨psi, t⟩ := he.mt.tables
    have hroot : nttRoot l e.mt ^ 2 ^ l = -1 := by rw [nttRoot_eq he.mt t]; exact t.root
    rw [slots_evalPoly hroot t.l1]
    simp only [← he.N, slots_noise]
  · refine lt_of_le_of_lt (mul_le_mul_of_nonneg_left (lsbBound_mono _ ?_) (by norm_num)) hB
    exact_mod_cast c53_growth hb hm u i

/-- C53: **BGV with coefficients.** -/
theorem c53_bgv_coefficients (est : Estimate) {c : Rns.Ctx} (hc : GoodCtx w l c) {m0 : Modulus}
    {rest : List Modulus} {lev : ℕ} (hms : c.qs.take lev = m0 :: rest) (ht : c.t ≤ m0.N) {k : RKey}
    (hkm : k.ms = m0 :: rest) (hk : KeyIs l k S) {x : ι → RCt} {F : ι → Fin (2 ^ l) → ℤ}
    {M : RPoly → Fin (2 ^ l) → ℤ}
    (hx : ∀ i, (x i).ms = m0 :: rest ∧ (x i).power = 1 ∧ (x i).c ≠ [] ∧ Encrypts l S (x i) (F i))
    (u : RCircuit ι) (hu : u.PlainsOk w l (m0 :: rest) M) {d : ℕ}
    (hd : u.comps (fun i => (x i).c.length) = some d) {b : ι → ℤ} {m : RPoly → ℤ}
    (hb : ∀ i j, |F i j| ≤ b i) (hm : ∀ p j, |M p j| ≤ m p)
    (hB : 2 * lsbBound c.t (dropOrder (m0 :: rest)) (u.bound (2 ^ l) b m) < m0.N) :
    ∃ r, u.run x = .ok r ∧ k.decryptBgv (coefficientEncoder est c) r =
      .ok (List.ofFn fun i => (u.evalPoly F M i % c.t).toNat) := by
  have hg : ∀ q ∈ m0 :: rest, GoodModulus w l q := fun q hq => by
    rw [← hms] at hq; exact hc.qs q (List.mem_of_mem_take hq)
  have hc' := c53_circuit hg (by simp) hx u hu
  rw [hd] at hc'
  obtain ⟨r, r1, r2, r3, r4, r5, r6⟩ := hc'
  obtain ⟨z, z1, z2, z3, -⟩ := c55_decrypt (k := k) (by rw [hkm]; exact hg) (by simp [hkm]) hk (by rw [r2, hkm]) r3
    (List.length_pos_iff.mp (r4.symm ▸ r5)) r6
  refine ⟨r, r1, ?_⟩
  rw [z3]
  show decodeBgv c z k.ms = _
  rw [hkm] at z2 ⊢
  rw [c48_decode hc hms ht z2 (fun i => ?_)]
  refine lt_of_le_of_lt (mul_le_mul_of_nonneg_left (lsbBound_mono _ ?_) (by norm_num)) hB
  exact_mod_cast c53_growth hb hm u i

/-- C53: with CRT interpolation, decryption is correct up to half of the product of the moduli. -/
theorem c53_bgv_crt {W : ℕ} {e : FFEncoder} (he : GoodEncoder w l e) {lev : ℕ} {k : RKey}
    (hms : e.ctx.qs.take lev = k.ms) (hne : k.ms ≠ []) (hk : KeyIs l k S) (hxm : x.ms = k.ms)
    (hp : x.power = 1) (h0 : x.c ≠ []) {R : Fin (2 ^ l) → ℤ}
    (hx : Encrypts l S x (fun j => M j + e.ctx.t * R j))
    (hW : ∀ m ∈ k.ms, modulusProd k.ms * m.N ≤ 2 ^ W) {hatInvs : List ℕ} (hi : HatInvs k.ms hatInvs)
    (ht : e.ctx.t ≤ modulusProd k.ms) (hF : ∀ i, 2 * |M i + e.ctx.t * R i| < modulusProd k.ms) :
    k.decryptBgvWithCrt W e x (modulusComplements W k.ms) hatInvs =
      .ok (List.ofFn fun i : Fin (2 ^ l) => (slotsOf (nttRoot l e.mt) l M i).val) := by
  have hg : ∀ q ∈ k.ms, GoodModulus w l q := fun q hq => by
    rw [← hms] at hq; exact he.ctx.qs q (List.mem_of_mem_take hq)
  obtain ⟨z, z1, z2, -, -, z3⟩ := c55_decrypt hg hne hk hxm hp h0 hx
  rw [z3 W e _ _ (by simp [modulusComplements]) (by have := List.Forall₂.length_eq hi; omega),
    c50_decode_crt he hms hne z2 hW hi ht hF]
  congr 1
  congr 1
  funext i
  obtain ⟨psi, t⟩ := he.mt.tables
  have hroot : nttRoot l e.mt ^ 2 ^ l = -1 := by rw [nttRoot_eq he.mt t]; exact t.root
  simp only [← he.N, slots_noise]

/-! ### Round trips -/

/-- C55: BGV encryption with the secret key and decryption return the messages modulo `t`, at any level. -/
theorem c55_bgv_roundtrip (est : Estimate) {e : FFEncoder} (he : GoodEncoder w l e) {m0 : Modulus}
    {rest : List Modulus} {lev : ℕ} (hms : e.ctx.qs.take lev = m0 :: rest) (ht : e.ctx.t ≤ m0.N) {k : RKey}
    (hkm : k.ms = m0 :: rest) (hk : GoodKey w l k S) (G : Gen σ) (hG : Words G) {fuel : ℕ} {msgs : List ℕ}
    (hw : ∀ a ∈ msgs, a < 2 ^ w) (hn : msgs.length ≤ 2 ^ l) {s s1 s2 : σ} {a err : RPoly}
    (ha : sampleUniform G fuel k.key.logN k.ms s = .ok (a, s1))
    (herr : sampleErr G k.key.logN k.variance k.ms s1 = .ok (err, s2))
    (hB : 2 * lsbBound e.ctx.t (dropOrder (m0 :: rest)) (e.ctx.t / 2 + e.ctx.t * (2 * k.variance)) < m0.N) :
    ∃ x, k.encryptBgv G fuel (finiteFieldEncoder est e) msgs s = .ok (x, s2) ∧
      k.decryptBgv (finiteFieldEncoder est e) x =
        .ok (msgs.map (· % e.ctx.t) ++ List.replicate (2 ^ l - msgs.length) 0) := by
  have hmem : ∀ q ∈ m0 :: rest, q ∈ e.ctx.qs := fun q hq => by
    rw [← hms] at hq; exact List.mem_of_mem_take hq
  obtain ⟨pt, F, p1, p2, p3, p4, p5⟩ := c50_encode_bgv he (ms := m0 :: rest) (by simp) hmem hw hn
  rw [← hkm] at p3
  obtain ⟨x, R, x1, ⟨x2, x3, x4⟩, x5, x6⟩ := c55_encrypt_bgv G hG hk (E := finiteFieldEncoder est e)
    (msgs := msgs) (by rw [hkm]; exact p1) p3 he.ctx.word ha herr
  refine ⟨x, x1, ?_⟩
  obtain ⟨z, z1, z2, z3, -⟩ := c55_decrypt hk.good (by simp [hkm]) hk.key x2 x3
    (List.length_pos_iff.mp (by omega)) x5
  rw [z3]
  show ffDecodeBgv e z k.ms = _
  rw [hkm] at z2 ⊢
  rw [c50_decode_bgv he hms ht z2 (fun i => ?_)]
  · obtain ⟨psi, t⟩ := he.mt.tables
    have hroot : nttRoot l e.mt ^ 2 ^ l = -1 := by rw [nttRoot_eq he.mt t]; exact t.root
    haveI : NeZero e.mt.N := ⟨he.mt.prime.ne_zero⟩
    have hs := ofFn_slots hn p5
    congr 1
    rw [← he.N, ← hs]
    congr 1
    funext i
    show (slotsOf _ l (fun j => F j + (e.ctx.t : ℤ) * R j) i).val = _
    rw [← he.N, slots_noise]
  · refine lt_of_le_of_lt (mul_le_mul_of_nonneg_left (lsbBound_mono _ ?_) (by norm_num)) hB
    show |((F i + (e.ctx.t : ℤ) * R i : ℤ) : ℚ)| ≤ _
    push_cast
    refine (abs_add_le _ _).trans (add_le_add ?_ ?_)
    · have h4 : (2 * |F i| : ℤ) ≤ e.ctx.t := p4 i
      have : (2 * |(F i : ℚ)|) ≤ e.ctx.t := by exact_mod_cast h4
      linarith
    · rw [abs_mul, Nat.abs_cast]
      refine mul_le_mul_of_nonneg_left ?_ (Nat.cast_nonneg _)
      exact_mod_cast x6 i

/-- C55: BFV encryption with the secret key (with one or with two generators) and decryption return the messages
modulo `t`. -/
theorem c55_bfv_roundtrip {ε : ℚ} {est : Estimate} {e : FFEncoder}
    (hest : EstimateWithin e.ctx.qs.length ε est) (hε : ε < 1 / 2) (he : GoodEncoder w l e) (hb : BfvConstants e.ctx e.mt) {k : RKey}
    (hkm : k.ms = e.ctx.qs) (hne : e.ctx.qs ≠ []) (hlen : e.ctx.qs.length < 2 ^ w) (hk : GoodKey w l k S)
    (G : Gen σ) (hG : Words G) {fuel : ℕ} {msgs : List ℕ}
    (hw : ∀ a ∈ msgs, a < 2 ^ w) (hn : msgs.length ≤ 2 ^ l)
    (hB : (e.ctx.t : ℚ) * (2 * k.variance + 1) ≤ (1 / 2 - ε) * modulusProd e.ctx.qs) :
    (∀ {s s1 s2 : σ} {a err : RPoly}, sampleUniform G fuel k.key.logN k.ms s = .ok (a, s1) →
      sampleErr G k.key.logN k.variance k.ms s1 = .ok (err, s2) →
      ∃ x, k.encryptBfv1 G fuel (finiteFieldEncoder est e) msgs s = .ok (x, s2) ∧
        k.decryptBfv (finiteFieldEncoder est e) x =
          .ok (msgs.map (· % e.ctx.t) ++ List.replicate (2 ^ l - msgs.length) 0)) ∧
    (∀ (Gp : Gen τ) {s s1 : σ} {sp sp1 : τ} {a err : RPoly},
      sampleUniform Gp fuel k.key.logN k.ms sp = .ok (a, sp1) →
      sampleErr G k.key.logN k.variance k.ms s = .ok (err, s1) →
      ∃ x, k.encryptBfv G Gp fuel (finiteFieldEncoder est e) msgs s sp = .ok (x, s1, sp1) ∧
        k.decryptBfv (finiteFieldEncoder est e) x =
          .ok (msgs.map (· % e.ctx.t) ++ List.replicate (2 ^ l - msgs.length) 0)) := by
  obtain ⟨pt, F, p1, p2, p3, p4, p5⟩ := c50_encode_bfv he hb hne hw hn
  rw [← hkm] at p3
  have key : ∀ {x : RCt} {R : Fin (2 ^ l) → ℤ}, Fresh k x →
      Encrypts l S x ((fun j => ⌈(modulusProd k.ms * F j : ℚ) / e.ctx.t⌉) + R) →
      (∀ i, |R i| ≤ 2 * k.variance) → k.decryptBfv (finiteFieldEncoder est e) x =
          .ok (msgs.map (· % e.ctx.t) ++ List.replicate (2 ^ l - msgs.length) 0) := by
    rintro x R ⟨x2, x3, x4⟩ x5 x6
    obtain ⟨z, z1, z2, -, z3, -⟩ := c55_decrypt hk.good (by simp [hkm, hne]) hk.key x2 x3
      (List.length_pos_iff.mp (by omega)) x5
    rw [z3]
    show ffDecodeBfv est e z k.ms = _
    rw [hkm] at z2 ⊢
    rw [c50_decode_bfv he hb (k := e.ctx.qs.length) List.take_length hne z2 (M := fun j => (F j : ℤ)) hest hε
      hlen (fun i => ?_)]
    · haveI : NeZero e.mt.N := ⟨he.mt.prime.ne_zero⟩
      have hs := ofFn_slots hn p5
      congr 1
      rw [← he.N, ← hs]
    · have ht : (0 : ℚ) < e.ctx.t := by exact_mod_cast he.ctx.pos
      have c1 := Int.le_ceil ((modulusProd e.ctx.qs * F i : ℚ) / e.ctx.t)
      have c2 := Int.ceil_lt_add_one ((modulusProd e.ctx.qs * F i : ℚ) / e.ctx.t)
      have hR : |(R i : ℚ)| ≤ 2 * k.variance := by exact_mod_cast x6 i
      rw [abs_le] at hR
      show |(e.ctx.t : ℚ) * ((⌈(modulusProd e.ctx.qs * F i : ℚ) / e.ctx.t⌉ + R i : ℤ) : ℚ) - _| < _
      push_cast
      set C := (⌈(modulusProd e.ctx.qs * F i : ℚ) / e.ctx.t⌉ : ℚ) with hC
      have e1 : (e.ctx.t : ℚ) * ((modulusProd e.ctx.qs * F i : ℚ) / e.ctx.t) = modulusProd e.ctx.qs * F i := by
        field_simp
      have d1 := mul_le_mul_of_nonneg_left c1 ht.le
      have d2 := mul_lt_mul_of_pos_left c2 ht
      rw [e1] at d1
      rw [mul_add, e1] at d2
      have d3 := mul_le_mul_of_nonneg_left hR.1 ht.le
      have d4 := mul_le_mul_of_nonneg_left hR.2 ht.le
      rw [abs_lt]
      constructor
      · rw [mul_add]; nlinarith
      · rw [mul_add]; nlinarith
  constructor
  · intro s s1 s2 a err ha herr
    obtain ⟨x, R, x1, x2, x3, x4⟩ := (c55_encrypt_bfv G hG G hk (E := finiteFieldEncoder est e)
      (msgs := msgs) (by rw [hkm]; exact p1) p3).1 ha herr
    exact ⟨x, x1, key x2 x3 x4⟩
  · intro Gp s s1 sp sp1 a err ha herr
    obtain ⟨x, R, x1, x2, x3, x4⟩ := (c55_encrypt_bfv G hG Gp hk (E := finiteFieldEncoder est e)
      (msgs := msgs) (by rw [hkm]; exact p1) p3).2 ha herr
    exact ⟨x, x1, key x2 x3 x4⟩

/-- C55: BGV encryption with a public key of the secret key, and decryption, return the messages modulo `t`. -/
theorem c55_bgv_public_roundtrip (est : Estimate) {e : FFEncoder} (he : GoodEncoder w l e) {m0 : Modulus}
    {rest : List Modulus} {lev : ℕ} (hms : e.ctx.qs.take lev = m0 :: rest) (ht : e.ctx.t ≤ m0.N) {k : RKey}
    (hkm : k.ms = m0 :: rest) (hk : KeyIs l k S) {pk : RPub} (hpm : pk.ms = k.ms)
    (hpk : PublicKeyOf l pk S e.ctx.t) (hv : 2 * pk.variance ≤ m0.N) (hv0 : 0 ≤ pk.variance)
    (G : Gen σ) (hG : Words G) {msgs : List ℕ}
    (hw : ∀ a ∈ msgs, a < 2 ^ w) (hn : msgs.length ≤ 2 ^ l) {s s1 s2 s3 : σ} {r e0 e1 : RPoly}
    (hr : sampleErr G pk.a.logN pk.variance pk.ms s = .ok (r, s1))
    (h0 : sampleErr G pk.a.logN pk.variance pk.ms s1 = .ok (e0, s2))
    (h1 : sampleErr G pk.a.logN pk.variance pk.ms s2 = .ok (e1, s3))
    (hB : 2 * lsbBound e.ctx.t (dropOrder (m0 :: rest)) (e.ctx.t / 2 + e.ctx.t *
      ((2 * pk.variance * (2 ^ l * (2 * pk.variance) + 1 + norm1 S) : ℤ) : ℚ)) < m0.N) :
    ∃ x, pk.encryptBgv G (finiteFieldEncoder est e) msgs s = .ok (x, s3) ∧
      k.decryptBgv (finiteFieldEncoder est e) x =
        .ok (msgs.map (· % e.ctx.t) ++ List.replicate (2 ^ l - msgs.length) 0) := by
  have hmem : ∀ q ∈ m0 :: rest, q ∈ e.ctx.qs := fun q hq => by
    rw [← hms] at hq; exact List.mem_of_mem_take hq
  have hg : ∀ q ∈ k.ms, GoodModulus w l q := fun q hq => he.ctx.qs q (hmem q (hkm ▸ hq))
  obtain ⟨pt, F, p1, p2, p3, p4, p5⟩ := c50_encode_bgv he (ms := m0 :: rest) (by simp) hmem hw hn
  rw [← hkm, ← hpm] at p3
  obtain ⟨x, R, x1, x2, x3, x4, x5, x6⟩ := c55_public_encrypt_bgv G hG (k := pk) (by rw [hpm]; exact hg)
    (by rw [hpm, hkm]; simpa using hv) hv0 (E := finiteFieldEncoder est e) hpk
    (msgs := msgs) (by rw [hpm, hkm]; exact p1) p3 he.ctx.word hr h0 h1
  refine ⟨x, x1, ?_⟩
  obtain ⟨z, z1, z2, z3, -⟩ := c55_decrypt hg (by simp [hkm]) hk (x2.trans hpm) x3
    (List.length_pos_iff.mp (by omega)) x5
  rw [z3]
  show ffDecodeBgv e z k.ms = _
  rw [hkm] at z2 ⊢
  rw [c50_decode_bgv he hms ht z2 (fun i => ?_)]
  · obtain ⟨psi, t⟩ := he.mt.tables
    have hroot : nttRoot l e.mt ^ 2 ^ l = -1 := by rw [nttRoot_eq he.mt t]; exact t.root
    haveI : NeZero e.mt.N := ⟨he.mt.prime.ne_zero⟩
    have hs := ofFn_slots hn p5
    congr 1
    rw [← he.N, ← hs]
    congr 1
    funext i
    show (slotsOf _ l (fun j => F j + (e.ctx.t : ℤ) * R j) i).val = _
    rw [← he.N, slots_noise]
  · refine lt_of_le_of_lt (mul_le_mul_of_nonneg_left (lsbBound_mono _ ?_) (by norm_num)) hB
    show |((F i + (e.ctx.t : ℤ) * R i : ℤ) : ℚ)| ≤ _
    rw [Int.cast_add, Int.cast_mul, Int.cast_natCast]
    refine (abs_add_le _ _).trans (add_le_add ?_ ?_)
    · have h4 : (2 * |F i| : ℤ) ≤ e.ctx.t := p4 i
      have : (2 * |(F i : ℚ)|) ≤ e.ctx.t := by exact_mod_cast h4
      linarith
    · rw [abs_mul, Nat.abs_cast]
      refine mul_le_mul_of_nonneg_left ?_ (Nat.cast_nonneg _)
      rw [← Int.cast_abs]
      exact_mod_cast x6 i

end Shell
